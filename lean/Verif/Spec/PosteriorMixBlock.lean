import Verif.Spec.PosteriorMix
import Verif.Spec.PosteriorBlock
/-!
# Specification: the posterior distribution that the gamma-mixture model's `resample_model` is meant to sample when its network is a learned one-block network

`StochasticBlockModel` with the default `C=1` (the network class of `DiscreteTimeNetworkHawkesModelGammaMixtureSBM`) or `ErdosRenyiModel`: the edge probability `p ~ Beta(tau1, tau0)` and
the scale `v ~ Gamma(alpha_v, beta_v)` are learned; otherwise as in `Spec.PosteriorMix`.
-/
namespace PyHawkes.Spec
open MeasureTheory ProbabilityTheory Finset

/-- prior of the parameters: `p ~ Beta`, `v ~ Gamma`, `lambda0[k] ~ Gamma`, `g[i,j] ~ Dirichlet`; the factors of the density are the probability of the components given `p` and the density
of the weights given the components and `v` -/
noncomputable def priorMixB (kappa0 nu0 : ℝ) (c : HawkesState) (n : SBM) : Measure (ThetaB c.base.K) :=
  ((betaMeasure n.tau1 n.tau0).prod ((Measure.pi fun _ : Pair c.base.K => Measure.dirac (0 : ℝ) + Measure.dirac 1).prod ((gammaMeasure n.alpha n.beta).prod ((Measure.pi fun _ => volume).prod
    ((Measure.pi fun _ => gammaMeasure c.alpha c.beta).prod (Measure.pi fun _ => dirichletLaw c.base.B c.gamma)))))).withDensity
    fun θ => (∏ e, edgePmf θ.1 (θ.2.1 e)) * ∏ e, mixWeightPdf kappa0 nu0 n.kappa θ.2.2.1 (θ.2.1 e) (θ.2.2.2.1 e)

/-- posterior distribution of the parameters given the data: prior times likelihood, normalised -/
noncomputable def posteriorMixB (kappa0 nu0 : ℝ) (c : HawkesState) (n : SBM) : Measure (ThetaB c.base.K) :=
  (∫⁻ θ, likelihoodMix c θ.2 ∂priorMixB kappa0 nu0 c n)⁻¹ • (priorMixB kappa0 nu0 c n).withDensity fun θ => likelihoodMix c θ.2

end PyHawkes.Spec
