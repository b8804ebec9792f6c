import Verif.Props.MFSampleExp
import Mathlib.Probability.Independence.InfinitePi

/-! # C82: lawful generators exist -/
set_option linter.unusedSectionVars false
set_option linter.unusedVariables false

namespace PyHawkes
open Finset Spec MeasureTheory ProbabilityTheory

/-- a generator call together with its arguments -/
inductive MFCall where
  | lam (k : ℕ) (a : GammaArgs) | unif (i j : ℕ) | spike (i j : ℕ) (a : GammaArgs) | slab (i j : ℕ) (a : GammaArgs) | imp (i j : ℕ) (v : Vec ℝ)
  | blockM (v : Vec ℝ) | blockP (c e : ℕ) (a : BetaArgs) | blockV (c e : ℕ) (a : GammaArgs) | label (k : ℕ) (p : Vec ℝ) | erV (a : GammaArgs)

def MFCall.site : MFCall → MFSite
  | .lam k _ => .lam k
  | .unif i j => .unif i j
  | .spike i j _ => .spike i j
  | .slab i j _ => .slab i j
  | .imp i j _ => .imp i j
  | .blockM _ => .blockM
  | .blockP c e _ => .blockP c e
  | .blockV c e _ => .blockV c e
  | .label k _ => .label k
  | .erV _ => .erV

open Classical in
/-- the documented law where the arguments are legal, anything where they are not -/
noncomputable def gammaOr (a : GammaArgs) : Measure ℝ := if 0 < a.shape ∧ 0 < a.scale then npGammaLaw a else Measure.dirac 0
open Classical in
noncomputable def dirOr (n : ℕ) (v : Vec ℝ) : Measure (ℕ → ℝ) := if ∀ b < n, 0 < v b then dirichletLaw n v else Measure.dirac fun _ => 0
open Classical in
noncomputable def betaOr (a : BetaArgs) : Measure ℝ := if 0 < a.a ∧ 0 < a.b then betaMeasure a.a a.b else Measure.dirac 0
open Classical in
noncomputable def choiceOr (C : ℕ) (p : Vec ℝ) : Measure ℕ := if IsProb C p then choiceLaw C p else Measure.dirac 0

instance (a : GammaArgs) : IsProbabilityMeasure (gammaOr a) := by
  unfold gammaOr
  split_ifs with h
  · exact isProbabilityMeasure_gammaMeasure h.1 (one_div_pos.2 h.2)
  · infer_instance
instance (n : ℕ) (v : Vec ℝ) : IsProbabilityMeasure (dirOr n v) := by
  unfold dirOr
  split_ifs with h
  · exact dirichlet_prob h
  · infer_instance
instance (a : BetaArgs) : IsProbabilityMeasure (betaOr a) := by
  unfold betaOr
  split_ifs with h
  · exact isProbabilityMeasureBeta h.1 h.2
  · infer_instance
instance (C : ℕ) (p : Vec ℝ) : IsProbabilityMeasure (choiceOr C p) := by
  unfold choiceOr
  split_ifs with h
  · exact choiceLaw_prob h
  · infer_instance

noncomputable def callLaw (B C : ℕ) : ∀ c : MFCall, Measure c.site.Val
  | .lam _ a => gammaOr a
  | .unif _ _ => (volume.restrict (Set.Ico 0 1) : Measure ℝ)
  | .spike _ _ a => gammaOr a
  | .slab _ _ a => gammaOr a
  | .imp _ _ v => dirOr B v
  | .blockM v => dirOr C v
  | .blockP _ _ a => betaOr a
  | .blockV _ _ a => gammaOr a
  | .label _ p => choiceOr C p
  | .erV a => gammaOr a

theorem unif_prob : IsProbabilityMeasure (volume.restrict (Set.Ico (0:ℝ) 1)) := ⟨by simp⟩

instance (B C : ℕ) : ∀ c, IsProbabilityMeasure (callLaw B C c)
  | .lam _ a => inferInstanceAs (IsProbabilityMeasure (gammaOr a))
  | .unif _ _ => unif_prob
  | .spike _ _ a => inferInstanceAs (IsProbabilityMeasure (gammaOr a))
  | .slab _ _ a => inferInstanceAs (IsProbabilityMeasure (gammaOr a))
  | .imp _ _ v => inferInstanceAs (IsProbabilityMeasure (dirOr B v))
  | .blockM v => inferInstanceAs (IsProbabilityMeasure (dirOr C v))
  | .blockP _ _ a => inferInstanceAs (IsProbabilityMeasure (betaOr a))
  | .blockV _ _ a => inferInstanceAs (IsProbabilityMeasure (gammaOr a))
  | .label _ p => inferInstanceAs (IsProbabilityMeasure (choiceOr C p))
  | .erV a => inferInstanceAs (IsProbabilityMeasure (gammaOr a))

/-- the generators read off an outcome of the product space -/
def drawsOf (ω : ∀ c : MFCall, c.site.Val) : MFDraws where
  lam := fun k a => ω (.lam k a)
  u := fun i j => ω (.unif i j)
  spike := fun i j a => ω (.spike i j a)
  slab := fun i j a => ω (.slab i j a)
  dir := fun i j v => ω (.imp i j v)
  net := { beta := fun c e a => ω (.blockP c e a), gamma := fun c e a => ω (.blockV c e a), label := fun k p => ω (.label k p), dirichlet := fun v => ω (.blockM v) }
  erGamma := fun a => ω (.erV a)

/-- the call made at a site -/
def callOf (a : MFCallArgs) : MFSite → MFCall
  | .lam k => .lam k (a.lam k)
  | .unif i j => .unif i j
  | .spike i j => .spike i j (a.spike i j)
  | .slab i j => .slab i j (a.slab i j)
  | .imp i j => .imp i j (a.imp i j)
  | .blockM => .blockM a.blockM
  | .blockP c e => .blockP c e (a.blockP c e)
  | .blockV c e => .blockV c e (a.blockV c e)
  | .label k => .label k (a.label k)
  | .erV => .erV a.erV

theorem callOf_site (a : MFCallArgs) (s : MFSite) : (callOf a s).site = s := by cases s <;> rfl

theorem callOf_inj (a : MFCallArgs) : Function.Injective (callOf a) := fun s t h => by
  rw [← callOf_site a s, h, callOf_site]

/-- **C82, hypotheses.** For all sizes there are a probability space and generators on it that follow the documented laws and are independent. -/
theorem C82_lawful_draws_exist (B C : ℕ) :
    ∃ (Ω : Type) (_ : MeasurableSpace Ω) (P : Measure Ω) (_ : IsProbabilityMeasure P) (d : Ω → MFDraws), MFLaws P B C d ∧ Independent P d := by
  refine ⟨∀ c : MFCall, c.site.Val, inferInstance, Measure.infinitePi (callLaw B C), inferInstance, drawsOf, ?_, ?_⟩
  · have law : ∀ c : MFCall, HasLaw (fun ω : ∀ c : MFCall, c.site.Val => ω c) (callLaw B C c) (Measure.infinitePi (callLaw B C)) :=
      fun c => ⟨(measurable_pi_apply c).aemeasurable, Measure.infinitePi_map_eval _ c⟩
    have eG : ∀ a : GammaArgs, 0 < a.shape → 0 < a.scale → gammaOr a = npGammaLaw a := fun a h1 h2 => if_pos ⟨h1, h2⟩
    refine ⟨fun k a h1 h2 => ?_, fun i j => law (.unif i j), fun i j a h1 h2 => ?_, fun i j a h1 h2 => ?_, fun i j v h => ?_, fun v h => ?_, fun c e a h1 h2 => ?_,
      fun c e a h1 h2 => ?_, fun k p h => ?_, fun a h1 h2 => ?_⟩
    · rw [← eG a h1 h2]; exact law (.lam k a)
    · rw [← eG a h1 h2]; exact law (.spike i j a)
    · rw [← eG a h1 h2]; exact law (.slab i j a)
    · have e : dirOr B v = dirichletLaw B v := if_pos h
      rw [← e]; exact law (.imp i j v)
    · have e : dirOr C v = dirichletLaw C v := if_pos h
      rw [← e]; exact law (.blockM v)
    · have e2 : betaOr a = betaMeasure a.a a.b := if_pos ⟨h1, h2⟩
      rw [← e2]; exact law (.blockP c e a)
    · rw [← eG a h1 h2]; exact law (.blockV c e a)
    · have e : choiceOr C p = choiceLaw C p := if_pos h
      rw [← e]; exact law (.label k p)
    · rw [← eG a h1 h2]; exact law (.erV a)
  · intro a
    have h0 : iIndepFun (fun (c : MFCall) (ω : ∀ c : MFCall, c.site.Val) => ω c) (Measure.infinitePi (callLaw B C)) :=
      iIndepFun_infinitePi (X := fun _ x => x) fun c => measurable_id
    have h1 := h0.precomp (callOf_inj a)
    let f : ∀ s : MFSite, (callOf a s).site.Val → s.Val := fun s => match s with
      | .lam _ => fun x => x
      | .unif _ _ => fun x => x
      | .spike _ _ => fun x => x
      | .slab _ _ => fun x => x
      | .imp _ _ => fun x => x
      | .blockM => fun x => x
      | .blockP _ _ => fun x => x
      | .blockV _ _ => fun x => x
      | .label _ => fun x => x
      | .erV => fun x => x
    have hf : ∀ s, Measurable (f s) := by intro s; cases s <;> exact measurable_id
    have h2 := h1.comp f hf
    have e : (fun s (ω : ∀ c : MFCall, c.site.Val) => MFDraws.value (drawsOf ω) a s) = fun s => f s ∘ fun ω => ω (callOf a s) := by
      funext s ω; cases s <;> rfl
    rw [e]
    exact h2

/-- the hypotheses of `C82_expectations` and `C82_network_expectations` are met -/
example : ∃ (Ω : Type) (_ : MeasurableSpace Ω) (P : Measure Ω) (_ : IsProbabilityMeasure P) (d : Ω → MFDraws),
    ∃ (S : Ω → MFSample) (N : Ω → SBM), (∀ ω, (exMF true).resampleFromMf (d ω) = .ok (S ω, { exMF true with net := .sbm (N ω) })) ∧
      ∫ ω, (N ω).P 0 1 ∂P = (exMF true).net.eP 0 1 := by
  obtain ⟨Ω, m, P, hP, d, hl, hi⟩ := C82_lawful_draws_exist 1 2
  obtain ⟨S, N, h1, h2, _⟩ := C82_network_expectations (exMF true) (exMF_good true) (exSBM true) rfl rfl hl hi
  exact ⟨Ω, m, P, hP, d, S, N, h1, (h2 0 two_pos 1 one_lt_two zero_ne_one).1⟩

end PyHawkes
