import Verif.Spec.Posterior
/-!
# Specification: the posterior distribution that the gamma-mixture model's `resample_model` is meant to sample

Gamma-mixture model with an `ErdosRenyiFixedSparsity` network (the default). Generative model of the class: `lambda0[k] ~ Gamma(alpha, beta)`, `g[i,j] ~ Dirichlet(gamma)`,
`A[i,j] ~ Bernoulli(P[i,j])`, `v ~ Gamma(alpha_v, beta_v)` (or fixed), `W[i,j] ~ Gamma(kappa, v)` if `A[i,j] = 1` and `W[i,j] ~ Gamma(kappa_0, nu_0)` if `A[i,j] = 0`.
The rate uses `W` itself: `A` only selects the mixture component.
-/
namespace PyHawkes.Spec
open MeasureTheory ProbabilityTheory Finset

/-- density of one weight given its component `a` (0 or 1) and the scale `v` -/
noncomputable def mixWeightPdf (kappa0 nu0 kappa v a w : ℝ) : ENNReal := if a = 1 then gammaPDF kappa v w else gammaPDF kappa0 nu0 w

/-- prior of the parameters of the gamma-mixture model; the factor is the density of the weights given the components and the scale -/
noncomputable def priorMix (kappa0 nu0 : ℝ) (c : HawkesState) (n : ERFixed) : Measure (Theta c.base.K) :=
  ((Measure.pi fun e : Pair c.base.K => coinLaw (n.P e.1 e.2)).prod ((scalePrior n).prod ((Measure.pi fun _ => volume).prod
    ((Measure.pi fun _ => gammaMeasure c.alpha c.beta).prod (Measure.pi fun _ => dirichletLaw c.base.B c.gamma))))).withDensity
    fun θ => ∏ e, mixWeightPdf kappa0 nu0 n.kappa θ.2.1 (θ.1 e) (θ.2.2.1 e)

/-- likelihood of all data sets: the exponential of `log_likelihood()`, with `W_effective = W` -/
noncomputable def likelihoodMix (c : HawkesState) (θ : Theta c.base.K) : ENNReal :=
  ENNReal.ofReal (Real.exp (llModel (rateParams c.base (fun _ => 1) θ.2.2.1 θ.2.2.2.1 θ.2.2.2.2) c.data))

/-- posterior distribution of the parameters given the data: prior times likelihood, normalised -/
noncomputable def posteriorMix (kappa0 nu0 : ℝ) (c : HawkesState) (n : ERFixed) : Measure (Theta c.base.K) :=
  (∫⁻ θ, likelihoodMix c θ ∂priorMix kappa0 nu0 c n)⁻¹ • (priorMix kappa0 nu0 c n).withDensity (likelihoodMix c)

end PyHawkes.Spec
