"""Rewrites section 5 of DESIGN.md from the docstrings of the *_violated theorems."""
import re,glob
out=[]
for f in sorted(glob.glob('/verif/lean/Verif/Props/*.lean')):
    s=open(f).read()
    for m in re.finditer(r'/--((?:(?!-/).)*)-/\s*theorem (C(\d+)_\w*(?:violated|disagrees)\w*)',s,re.S):
        d=' '.join(m.group(1).split()); d=re.sub(r'^\*\*[^*]*\*\*\s*','',d)
        out.append((int(m.group(3)),m.group(2),d))
out.sort()
txt="""## 5. Findings: places where the unchanged code violates the property

Each is a theorem about the model (generated from the theorem comments by `tools/findings.py`).

"""+''.join('* C%02d `%s`: %s\n'%(n,t,d) for n,t,d in out)+"""
Observations on the code that are not stated as theorems, or only as comments in the model:

* `np.int` was removed in numpy 1.24: `add_data` and the conversions need an older numpy. `None in (array, ...)` (network constructors) raises on numpy >= 1.13.
* `resample_A` of the spike-and-slab and continuous-time weight models forks workers that all start from the parent's random state, so columns resampled by different workers may share uniforms (`joblib`); the theorems take the uniforms as given and say nothing about their independence.
* Gamma-mixture model without self connections: the forbidden self weight still enters the rate, because `W_effective = W`.
* The continuous-time `add_data` accepts a negative duration if there are no events.
* `compute_exact_weight_ss` omits the bin width: it is larger than the approximate statistic by the factor `1/dt` even when the approximation is exact (`C98_bin_width_violated`).
* `expected_log_likelihood` is documented as a lower bound obtained by Jensen's inequality; Jensen makes it an upper bound (`C99_upper_bound`, `C99_lower_bound_violated`).
* With its default penalties (none) the fit of the exponential and rectified-linear models may have no solution: `C101_unpenalised_no_solution_violated`. One event followed by silence is enough.
* `fit_with_bfgs_logspace` poses, for a process without events, a problem without solution (`C97_no_events_no_solution`).
* `fit_with_bfgs` with self connections disallowed starts at `1e-32`, below its lower bound `1e-16`; a process without events starts with bias 0.
* `leastsq` in the continuous-time `initialize_with_standard_model` is unconstrained, so the precision may be negative.
* `initialize_with_gibbs_model` ends a line in a comma and so raises for two or more processes (C45).
* The nonlinear `add_data` with a regressor matrix without bias column always raises; the fallback in the nonlinear `G` never runs.
* `weights.py` SpikeAndSlab `rvs` calls `size(...)` on a tuple (TypeError); `impulses.py:60-73` adds the normaliser with the wrong sign; `network.py` fixed-sparsity `log_likelihood` unpacks three of four values, the Erdos-Renyi `log_probability` reads attributes that do not exist; `parents.py` `resample_Z_python` uses `W`, not `W_effective`; `log_prior(ks=None)` of the standard model raises; `initialize_pyrngs` compares the string `OMP_NUM_THREADS` with an int.
"""
D='/verif/DESIGN.md'
s=open(D).read()
i=s.index('## 5. Findings')
open(D,'w').write(s[:i]+txt)
