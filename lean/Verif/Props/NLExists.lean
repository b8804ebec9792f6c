import Verif.Props.NLProc
import Verif.Props.StandardExists
import Verif.Props.StandardRate

/-!
# The optimisation problems of the nonlinear `fit_with_bfgs` and their solutions (C101, C74)
-/

set_option linter.unusedVariables false
set_option linter.unusedSectionVars false

namespace PyHawkes
open Finset Spec

namespace Spec

/-- regressors of a node as `add_data` makes them: first column one, nothing negative -/
def NLRegressors (nd : NLNode) : Prop := ∀ D ∈ nd.data, ∀ t < D.T, D.F t 0 = 1 ∧ ∀ c < 1 + nd.K * nd.B, 0 ≤ D.F t c

/-- `w` is a finite solution of the problem handed to the optimiser: smallest objective among the weights `ok` at which the objective is finite -/
def NLSolves (nd : NLNode) (ok : Vec ℝ → Prop) (w : Vec ℝ) : Prop :=
  ok w ∧ ∃ v, nd.objective w = .ok v ∧ ∀ w' v', ok w' → nd.objective w' = .ok v' → v ≤ v'

end Spec

theorem nlLL_le_slope {dt : ℝ} (hdt : 0 < dt) (l : List NLData) :
    ∃ C, ∀ r : NLData → ℕ → ℝ, (∀ D ∈ l, ∀ t < D.T, 0 < r D t) → nlLL dt l r ≤ C - dt / 2 * (l.map fun D => ∑ t ∈ range D.T, r D t).sum := by
  have h : ∀ s : ℕ, ∃ C, ∀ x, 0 < x → (s : ℝ) * Real.log x - x * dt ≤ C - dt / 2 * x := fun s => by
    obtain ⟨C, hC⟩ := log_le_slope s dt (Nat.cast_nonneg _) hdt
    exact ⟨C, fun x hx => by rw [mul_comm x dt]; exact hC x hx⟩
  choose C hC using h
  refine ⟨(l.map fun D => ∑ t ∈ range D.T, C (D.S t)).sum, fun r hr => ?_⟩
  unfold nlLL
  induction l with
  | nil => simp
  | cons D l ih =>
    have h1 := ih fun D hD => hr D (List.mem_cons_of_mem _ hD)
    simp only [List.map_cons, List.sum_cons]
    have h2 : ∑ t ∈ range D.T, ((D.S t : ℝ) * Real.log (r D t) - r D t * dt) ≤ ∑ t ∈ range D.T, (C (D.S t) - dt / 2 * r D t) :=
      Finset.sum_le_sum fun t ht => hC _ _ (hr D (by simp) t (Finset.mem_range.1 ht))
    rw [Finset.sum_sub_distrib (f := fun t => C (D.S t)), ← Finset.mul_sum] at h2
    linarith

theorem list_sum_nonneg' {α : Type*} (l : List α) (f : α → ℝ) (h : ∀ x ∈ l, 0 ≤ f x) : 0 ≤ (l.map f).sum := by
  apply List.sum_nonneg
  intro x hx
  obtain ⟨y, hy, rfl⟩ := List.mem_map.1 hx
  exact h y hy

theorem list_le_sum' {α : Type*} {l : List α} {f : α → ℝ} (h : ∀ x ∈ l, 0 ≤ f x) {x : α} (hx : x ∈ l) : f x ≤ (l.map f).sum :=
  List.single_le_sum (fun y hy => by obtain ⟨z, hz, rfl⟩ := List.mem_map.1 hy; exact h z hz) _ (List.mem_map_of_mem hx)

theorem penalty_nonneg {n : ℕ} {sigma : Option ℝ} {l : ℝ} (hl : 0 ≤ l) (w : Vec ℝ) : 0 ≤ nlPenalty n sigma l w := by
  unfold nlPenalty nlRidge
  have h1 : 0 ≤ l * ∑ c ∈ Ico 1 n, |w c| := mul_nonneg hl (Finset.sum_nonneg fun _ _ => abs_nonneg _)
  cases sigma with
  | none => simpa using h1
  | some s =>
    have h2 : 0 ≤ (∑ c ∈ Ico 1 n, w c ^ 2) / (2 * s ^ 2) := div_nonneg (Finset.sum_nonneg fun _ _ => sq_nonneg _) (by positivity)
    dsimp only
    linarith

theorem penalty_mono {n : ℕ} {sigma : Option ℝ} {l : ℝ} (hl : 0 ≤ l) {w w' : Vec ℝ} (h0 : ∀ c < n, 0 ≤ w c) (h : ∀ c < n, w c ≤ w' c) : nlPenalty n sigma l w ≤ nlPenalty n sigma l w' := by
  unfold nlPenalty nlRidge
  have h1 : l * ∑ c ∈ Ico 1 n, |w c| ≤ l * ∑ c ∈ Ico 1 n, |w' c| := mul_le_mul_of_nonneg_left (Finset.sum_le_sum fun c hc => by
    have hc := (Finset.mem_Ico.1 hc).2
    exact abs_le_abs_of_nonneg (h0 c hc) (h c hc)) hl
  cases sigma with
  | none => simpa using h1
  | some s =>
    have h2 : (∑ c ∈ Ico 1 n, w c ^ 2) / (2 * s ^ 2) ≤ (∑ c ∈ Ico 1 n, w' c ^ 2) / (2 * s ^ 2) := div_le_div_of_nonneg_right (Finset.sum_le_sum fun c hc => by
      have hc := (Finset.mem_Ico.1 hc).2
      exact pow_le_pow_left₀ (h0 c hc) (h c hc) 2) (by positivity)
    dsimp only
    linarith

theorem predictor_cont (n : ℕ) (D : NLData) (t : ℕ) : Continuous fun w : ℕ → ℝ => predictor n w D t := by
  unfold predictor
  exact continuous_finsetSum _ fun c _ => (continuous_apply c).const_mul _

theorem penalty_cont (n : ℕ) (sigma : Option ℝ) (l : ℝ) : Continuous fun w : ℕ → ℝ => nlPenalty n sigma l w := by
  unfold nlPenalty
  refine Continuous.add ?_ (continuous_const.mul (continuous_finsetSum _ fun c _ => (continuous_apply c).abs))
  unfold nlRidge
  cases sigma with
  | none => exact continuous_const
  | some s => exact (continuous_finsetSum _ fun c _ => (continuous_apply c).pow 2).div_const _

theorem link_cont (kind : NLKind) : Continuous kind.link := by
  cases kind with
  | linear => exact continuous_id
  | homog => exact continuous_id
  | exp => exact Real.continuous_exp
  | relu =>
    unfold NLKind.link
    dsimp only
    refine continuous_const.add (Continuous.log (continuous_const.add Real.continuous_exp) fun x => ?_)
    positivity

theorem nodeLL_contOn (nd : NLNode) : ContinuousOn (nodeLL nd) {w : ℕ → ℝ | RatesPos nd w} := by
  have h : ∀ l : List NLData, (∀ D ∈ l, D ∈ nd.data) → ContinuousOn (fun w : ℕ → ℝ => nlLL nd.dt l fun D t => nd.kind.link (predictor (1 + nd.K * nd.B) w D t)) {w | RatesPos nd w} := by
    intro l
    induction l with
    | nil => intro _; unfold nlLL; simp only [List.map_nil, List.sum_nil]; exact continuousOn_const
    | cons D l ih =>
      intro hl
      have := ih fun D hD => hl D (List.mem_cons_of_mem _ hD)
      unfold nlLL at this ⊢
      simp only [List.map_cons, List.sum_cons]
      refine ContinuousOn.add ?_ this
      refine continuousOn_finsetSum _ fun t ht => ?_
      have hc := (link_cont nd.kind).comp (predictor_cont (1 + nd.K * nd.B) D t)
      exact ContinuousOn.sub (ContinuousOn.mul continuousOn_const (hc.continuousOn.log fun w hw => (hw D (hl D (by simp)) t (Finset.mem_range.1 ht)).ne')) (hc.mul continuous_const).continuousOn
  exact h nd.data fun _ h => h

theorem predictor_congr {n : ℕ} {w w' : Vec ℝ} (h : ∀ c < n, w c = w' c) (D : NLData) (t : ℕ) : predictor n w D t = predictor n w' D t := by
  unfold predictor
  exact Finset.sum_congr rfl fun c hc => by rw [h c (Finset.mem_range.1 hc)]

theorem nodeLL_congr' {nd : NLNode} {w w' : Vec ℝ} (h : ∀ D ∈ nd.data, ∀ t < D.T, predictor (1 + nd.K * nd.B) w D t = predictor (1 + nd.K * nd.B) w' D t) : nodeLL nd w = nodeLL nd w' := by
  unfold nodeLL nlLL
  congr 1
  refine List.map_congr_left fun D hD => Finset.sum_congr rfl fun t ht => ?_
  dsimp only
  rw [h D hD t (Finset.mem_range.1 ht)]

theorem linear_pos {nd : NLNode} (hF : NLRegressors nd) {w : Vec ℝ} (hw : ∀ c < 1 + nd.K * nd.B, 1e-16 ≤ w c) :
    ∀ D ∈ nd.data, ∀ t < D.T, ∀ c < 1 + nd.K * nd.B, D.F t c * w c ≤ predictor (1 + nd.K * nd.B) w D t := by
  intro D hD t ht c hc
  unfold predictor
  exact Finset.single_le_sum (f := fun c => D.F t c * w c) (s := range (1 + nd.K * nd.B)) (fun c hc => mul_nonneg ((hF D hD t ht).2 c (Finset.mem_range.1 hc)) (le_trans (by norm_num) (hw c (Finset.mem_range.1 hc)))) (Finset.mem_range.2 hc)

theorem linear_ratesPos {nd : NLNode} (hk : nd.kind = .linear) (hF : NLRegressors nd) {w : Vec ℝ} (hw : ∀ c < 1 + nd.K * nd.B, 1e-16 ≤ w c) : RatesPos nd w := by
  intro D hD t ht
  rw [hk]
  show 0 < predictor _ w D t
  have h := linear_pos hF hw D hD t ht 0 (by omega)
  rw [(hF D hD t ht).1, one_mul] at h
  exact lt_of_lt_of_le (lt_of_lt_of_le (by norm_num) (hw 0 (by omega))) h

theorem objective_le_iff {nd : NLNode} (hN : 0 < nlEvents nd.data) (hs : nd.sigma ≠ some 0) {l : ℝ} (hl : nd.lmbda = some l) {ok : Vec ℝ → Prop} (hok : ∀ w, ok w → RatesPos nd w) (w : Vec ℝ) :
    NLSolves nd ok w ↔ ok w ∧ ∀ w', ok w' → nodeLL nd w' - nlPenalty (1 + nd.K * nd.B) nd.sigma l w' ≤ nodeLL nd w - nlPenalty (1 + nd.K * nd.B) nd.sigma l w := by
  have hN' : (0:ℝ) < nlEvents nd.data := by exact_mod_cast hN
  unfold NLSolves
  refine and_congr_right fun hw => ⟨?_, fun h => ⟨_, objective_ok hN hs hl (hok w hw), fun w' v' hw' hv' => ?_⟩⟩
  · rintro ⟨v, hv, hmin⟩ w' hw'
    have h := hmin w' _ hw' (objective_ok hN hs hl (hok w' hw'))
    rw [objective_ok hN hs hl (hok w hw)] at hv
    rw [← Except.ok.inj hv, ← add_div, ← add_div, div_le_div_iff_of_pos_right hN'] at h
    linarith
  · rw [objective_ok hN hs hl (hok w' hw')] at hv'
    rw [← Except.ok.inj hv', ← add_div, ← add_div, div_le_div_iff_of_pos_right hN']
    linarith [h w' hw']

/-- **C101 (linear nodes).** With at least one event, a positive bin width, nonnegative regressors whose first column is one, a penalty `lmbda` that is not negative and a nonzero `sigma` (the default values included), the problem that
`fit_with_bfgs` hands to the optimiser for a linear node, weights at least `1e-16`, has a solution. -/
theorem C101_linear_solution_exists {nd : NLNode} (hk : nd.kind = .linear) (hF : NLRegressors nd) (hdt : 0 < nd.dt) (hN : 0 < nlEvents nd.data) (hs : nd.sigma ≠ some 0) {l : ℝ} (hl : nd.lmbda = some l) (hl0 : 0 ≤ l) :
    ∃ w, (∀ c < 1 + nd.K * nd.B, 1e-16 ≤ w c) ∧ NLSolves nd nd.inBox w := by
  have hbox : ∀ w, nd.inBox w ↔ ∀ c < 1 + nd.K * nd.B, 1e-16 ≤ w c := fun w => ⟨fun h => h hk, fun h _ => h⟩
  obtain ⟨C, hC⟩ := nlLL_le_slope hdt nd.data
  set n := 1 + nd.K * nd.B with hn
  set q : Vec ℝ → ℝ := fun w => nodeLL nd w - nlPenalty n nd.sigma l w with hq
  set col : ℕ → ℝ := fun c => (nd.data.map fun D => ∑ t ∈ range D.T, D.F t c).sum with hcol
  have hcol0 : ∀ c < n, 0 ≤ col c := fun c hc => list_sum_nonneg' _ _ fun D hD => Finset.sum_nonneg fun t ht => (hF D hD t (Finset.mem_range.1 ht)).2 c hc
  have hrate : ∀ w, nodeLL nd w = nlLL nd.dt nd.data fun D t => predictor n w D t := by
    intro w
    unfold nodeLL
    rw [hk]
    rfl
  have hpos : ∀ w, (∀ c < n, 1e-16 ≤ w c) → RatesPos nd w := fun w hw => linear_ratesPos hk hF hw
  have hle : ∀ w, (∀ c < n, 1e-16 ≤ w c) → ∀ c < n, nodeLL nd w ≤ C - nd.dt / 2 * col c * w c := by
    intro w hw c hc
    have h1 := hC (fun D t => predictor n w D t) fun D hD t ht => by
      have := hpos w hw D hD t ht
      rw [hk] at this
      exact this
    rw [hrate]
    have h2 : col c * w c ≤ (nd.data.map fun D => ∑ t ∈ range D.T, predictor n w D t).sum := by
      rw [hcol]
      dsimp only
      rw [← List.sum_map_mul_right]
      refine List.sum_le_sum fun D hD => ?_
      rw [Finset.sum_mul]
      exact Finset.sum_le_sum fun t ht => linear_pos hF hw D hD t (Finset.mem_range.1 ht) c hc
    have h3 := mul_le_mul_of_nonneg_left h2 (by positivity : 0 ≤ nd.dt / 2)
    linarith
  set x0 : Vec ℝ := fun _ => 1e-16 with hx0
  have hx0b : ∀ c < n, 1e-16 ≤ x0 c := fun c _ => le_rfl
  set U : ℕ → ℝ := fun c => if col c = 0 then 1e-16 else max 1e-16 ((C - nodeLL nd x0) / (nd.dt / 2 * col c)) with hU
  have hU16 : ∀ c, 1e-16 ≤ U c := fun c => by
    rw [hU]
    dsimp only
    split
    · exact le_rfl
    · exact le_max_left _ _
  have hcomp : IsCompact (Set.univ.pi fun c => Set.Icc (1e-16 : ℝ) (U c)) := isCompact_univ_pi fun c => isCompact_Icc
  have hne : (Set.univ.pi fun c => Set.Icc (1e-16 : ℝ) (U c)).Nonempty := ⟨x0, fun c _ => ⟨le_rfl, hU16 c⟩⟩
  obtain ⟨x, hx, hmaxx⟩ := hcomp.exists_isMaxOn (f := q) hne (((nodeLL_contOn nd).mono fun x hx => hpos x fun c _ => (hx c (Set.mem_univ c)).1).sub (penalty_cont n nd.sigma l).continuousOn)
  have hxb : ∀ c < n, 1e-16 ≤ x c := fun c _ => (hx c (Set.mem_univ c)).1
  refine ⟨x, hxb, (objective_le_iff hN hs hl (fun w hw => hpos w ((hbox w).1 hw)) x).2 ⟨(hbox x).2 hxb, fun y hy => ?_⟩⟩
  have hy := (hbox y).1 hy
  have hx0x : q x0 ≤ q x := hmaxx fun c _ => ⟨le_rfl, hU16 c⟩
  show q y ≤ q x
  by_cases hbig : ∃ c < n, col c ≠ 0 ∧ U c < y c
  · obtain ⟨c, hc, hc0, hlt⟩ := hbig
    refine le_trans ?_ hx0x
    have hcp : 0 < nd.dt / 2 * col c := mul_pos (by positivity) (lt_of_le_of_ne (hcol0 c hc) (Ne.symm hc0))
    have h1 := hle y hy c hc
    have h2 : (C - nodeLL nd x0) / (nd.dt / 2 * col c) < y c := by
      refine lt_of_le_of_lt ?_ hlt
      rw [hU]
      dsimp only
      rw [if_neg hc0]
      exact le_max_right _ _
    rw [div_lt_iff₀ hcp] at h2
    have h3 : nlPenalty n nd.sigma l x0 ≤ nlPenalty n nd.sigma l y := penalty_mono hl0 (fun c _ => by rw [hx0]; norm_num) fun c hc => hy c hc
    rw [hq]
    dsimp only
    linarith
  · push Not at hbig
    set y' : Vec ℝ := fun c => if c < n then (if col c = 0 then 1e-16 else y c) else 1e-16 with hy'
    have hy'mem : y' ∈ Set.univ.pi fun c => Set.Icc (1e-16 : ℝ) (U c) := by
      intro c _
      rw [hy']
      dsimp only
      split
      · next hc =>
        split
        · exact ⟨le_rfl, hU16 c⟩
        · next h0 => exact ⟨hy c hc, hbig c hc h0⟩
      · exact ⟨le_rfl, hU16 c⟩
    refine le_trans ?_ (hmaxx hy'mem)
    have hLL : nodeLL nd y = nodeLL nd y' := by
      apply nodeLL_congr'
      intro D hD t ht
      unfold predictor
      refine Finset.sum_congr rfl fun c hc => ?_
      have hc := Finset.mem_range.1 hc
      rw [hy']
      dsimp only
      rw [if_pos hc]
      split
      · next h0 =>
        have h1 : ∑ t ∈ range D.T, D.F t c ≤ 0 := by
          rw [← h0]
          exact list_le_sum' (f := fun D : NLData => ∑ t ∈ range D.T, D.F t c) (fun D hD => Finset.sum_nonneg fun t ht => (hF D hD t (Finset.mem_range.1 ht)).2 c hc) hD
        have h2 : D.F t c ≤ ∑ t ∈ range D.T, D.F t c := Finset.single_le_sum (f := fun t => D.F t c) (fun t ht => (hF D hD t (Finset.mem_range.1 ht)).2 c hc) (Finset.mem_range.2 ht)
        have h3 : D.F t c = 0 := le_antisymm (h2.trans h1) ((hF D hD t ht).2 c hc)
        rw [h3, zero_mul, zero_mul]
      · rfl
    have hpen : nlPenalty n nd.sigma l y' ≤ nlPenalty n nd.sigma l y := by
      refine penalty_mono hl0 (fun c hc => ?_) fun c hc => ?_
      · exact le_trans (by norm_num) (hy'mem c (Set.mem_univ c)).1
      · rw [hy']
        dsimp only
        rw [if_pos hc]
        split
        · exact hy c hc
        · exact le_rfl
    rw [hq]
    dsimp only
    linarith

/-- a continuous function that is no larger far out than at some point has a maximum -/
theorem max_exists {n : ℕ} {f : (ℕ → ℝ) → ℝ} (hf : Continuous f) (hd : ∀ w w', (∀ c < n, w c = w' c) → f w = f w') (x0 : ℕ → ℝ) (R : ℝ) (hR : ∀ y, (∃ c < n, R < |y c|) → f y ≤ f x0) : ∃ x, ∀ y, f y ≤ f x := by
  set R' : ℝ := max R 0 + ∑ c ∈ range n, |x0 c| with hR'
  have hs : 0 ≤ ∑ c ∈ range n, |x0 c| := Finset.sum_nonneg fun _ _ => abs_nonneg _
  have hR0 : 0 ≤ R' := add_nonneg (le_max_right _ _) hs
  have hRR : R ≤ R' := (le_max_left R 0).trans (le_add_of_nonneg_right hs)
  have hcomp : IsCompact (Set.univ.pi fun _ : ℕ => Set.Icc (-R') R') := isCompact_univ_pi fun c => isCompact_Icc
  have hne : (Set.univ.pi fun _ : ℕ => Set.Icc (-R') R').Nonempty := ⟨fun _ => 0, fun c _ => ⟨by simpa using hR0, hR0⟩⟩
  obtain ⟨x, hx, hmax⟩ := hcomp.exists_isMaxOn hne hf.continuousOn
  have cut : ∀ y : ℕ → ℝ, (∀ c < n, |y c| ≤ R') → f y ≤ f x := by
    intro y hy
    rw [hd y (fun c => if c < n then y c else 0) fun c hc => by rw [if_pos hc]]
    refine hmax fun c _ => ?_
    dsimp only
    split
    · next hc => exact abs_le.1 (hy c hc)
    · exact ⟨by simpa using hR0, hR0⟩
  refine ⟨x, fun y => ?_⟩
  by_cases h : ∃ c < n, R < |y c|
  · refine (hR y h).trans (cut x0 fun c hc => ?_)
    have := Finset.single_le_sum (f := fun c => |x0 c|) (fun _ _ => abs_nonneg _) (Finset.mem_range.2 hc)
    exact this.trans (le_add_of_nonneg_left (le_max_right _ _))
  · push Not at h
    exact cut y fun c hc => (h c hc).trans hRR

theorem penalty_grows {n : ℕ} {sigma : Option ℝ} {l : ℝ} (hl : 0 ≤ l) (hp : 0 < l ∨ ∃ s, sigma = some s ∧ s ≠ 0) :
    ∃ κ > 0, ∃ C, ∀ w : Vec ℝ, ∀ c, 1 ≤ c → c < n → κ * |w c| - C ≤ nlPenalty n sigma l w := by
  have hridge : ∀ w : Vec ℝ, 0 ≤ nlRidge n sigma w := fun w => by
    unfold nlRidge
    cases sigma with
    | none => exact le_rfl
    | some s => exact div_nonneg (Finset.sum_nonneg fun _ _ => sq_nonneg _) (by positivity)
  rcases hp with h | ⟨s, hs, hs0⟩
  · refine ⟨l, h, 0, fun w c h1 hc => ?_⟩
    have := Finset.single_le_sum (f := fun c => |w c|) (s := Ico 1 n) (fun _ _ => abs_nonneg _) (Finset.mem_Ico.2 ⟨h1, hc⟩)
    have := mul_le_mul_of_nonneg_left this hl
    unfold nlPenalty
    have := hridge w
    linarith
  · refine ⟨1, one_pos, s ^ 2 / 2, fun w c h1 hc => ?_⟩
    have hs2 : 0 < s ^ 2 := by positivity
    have h2 : w c ^ 2 ≤ ∑ c ∈ Ico 1 n, w c ^ 2 := Finset.single_le_sum (f := fun c => w c ^ 2) (s := Ico 1 n) (fun _ _ => sq_nonneg _) (Finset.mem_Ico.2 ⟨h1, hc⟩)
    have h3 : w c ^ 2 / (2 * s ^ 2) ≤ (∑ c ∈ Ico 1 n, w c ^ 2) / (2 * s ^ 2) := div_le_div_of_nonneg_right h2 (by positivity)
    have h4 : |w c| - s ^ 2 / 2 ≤ w c ^ 2 / (2 * s ^ 2) := by
      rw [le_div_iff₀ (by positivity)]
      have := sq_nonneg (|w c| - s ^ 2)
      rw [← sq_abs (w c)]
      nlinarith
    have h5 : 0 ≤ l * ∑ c ∈ Ico 1 n, |w c| := mul_nonneg hl (Finset.sum_nonneg fun _ _ => abs_nonneg _)
    unfold nlPenalty nlRidge
    rw [hs]
    dsimp only
    linarith

/-- the lower end of the rates of a node -/
noncomputable def NLKind.floor : NLKind → ℝ
  | .relu => 1e-16
  | _ => 0

theorem link_bounds {kind : NLKind} (hk : kind = .exp ∨ kind = .relu) (psi : ℝ) :
    0 < kind.link psi ∧ psi ≤ kind.link psi ∧ kind.floor ≤ kind.link psi ∧ kind.link psi ≤ kind.floor + Real.exp psi := by
  rcases hk with rfl | rfl
  · refine ⟨Real.exp_pos _, ?_, (Real.exp_pos _).le, ?_⟩
    · show psi ≤ Real.exp psi
      linarith [Real.add_one_le_exp psi]
    · show Real.exp psi ≤ 0 + Real.exp psi
      simp
  · have he := Real.exp_pos psi
    have h1 : psi ≤ Real.log (1 + Real.exp psi) := by
      rw [Real.le_log_iff_exp_le (by positivity)]
      linarith
    have h0 : 0 < Real.log (1 + Real.exp psi) := Real.log_pos (by linarith)
    have h2 : Real.log (1 + Real.exp psi) ≤ Real.exp psi := (Real.log_le_sub_one_of_pos (by positivity)).trans (by linarith)
    refine ⟨?_, ?_, ?_, ?_⟩
    · show 0 < 1e-16 + Real.log (1 + Real.exp psi)
      positivity
    · show psi ≤ 1e-16 + Real.log (1 + Real.exp psi)
      linarith [show (0:ℝ) < 1e-16 by norm_num]
    · show (1e-16 : ℝ) ≤ 1e-16 + Real.log (1 + Real.exp psi)
      linarith
    · show 1e-16 + Real.log (1 + Real.exp psi) ≤ 1e-16 + Real.exp psi
      linarith

/-- with small rates everywhere the log likelihood is at most that of the largest such rate at the events and the smallest elsewhere -/
theorem nlLL_le_small {dt : ℝ} (hdt : 0 ≤ dt) (l : List NLData) {r : NLData → ℕ → ℝ} {a b : ℝ} (hr : ∀ D ∈ l, ∀ t < D.T, 0 < r D t ∧ a ≤ r D t ∧ r D t ≤ b) :
    nlLL dt l r ≤ nlEvents l * Real.log b - a * nlTime dt l := by
  induction l with
  | nil => simp [nlLL, nlEvents, nlTime]
  | cons D l ih =>
    have h1 := ih fun D hD => hr D (List.mem_cons_of_mem _ hD)
    unfold nlLL nlEvents nlTime at h1 ⊢
    simp only [List.map_cons, List.sum_cons]
    have h2 : ∑ t ∈ range D.T, ((D.S t : ℝ) * Real.log (r D t) - r D t * dt) ≤ ∑ t ∈ range D.T, ((D.S t : ℝ) * Real.log b - a * dt) := by
      refine Finset.sum_le_sum fun t ht => ?_
      obtain ⟨h3, h4, h5⟩ := hr D (by simp) t (Finset.mem_range.1 ht)
      have h6 := mul_le_mul_of_nonneg_left (Real.log_le_log h3 h5) (Nat.cast_nonneg (D.S t))
      have h7 := mul_le_mul_of_nonneg_right h4 hdt
      linarith
    rw [Finset.sum_sub_distrib (f := fun t => (D.S t : ℝ) * Real.log b), ← Finset.sum_mul, Finset.sum_const, card_range, nsmul_eq_mul] at h2
    rw [Nat.cast_add, Nat.cast_sum]
    linarith

theorem bin_exists {l : List NLData} (hN : 0 < nlEvents l) : ∃ D ∈ l, 0 < D.T := by
  by_contra hne
  push Not at hne
  have : nlEvents l = 0 := by
    unfold nlEvents
    apply List.sum_eq_zero
    intro x hx
    obtain ⟨D, hD, rfl⟩ := List.mem_map.1 hx
    rw [Nat.le_zero.1 (hne D hD)]
    simp
  omega

/-- **C101 (exponential and rectified-linear nodes).** With at least one event, a positive bin width, regressors whose first column is one, and at least one of the two penalties switched on (`lmbda` positive, or `sigma` finite and nonzero),
the unconstrained problem that `fit_with_bfgs` hands to the optimiser has a solution. (For the rectified-linear node the mean rate of the data must exceed the `1e-16` that the link adds to every rate.) -/
theorem C101_penalised_solution_exists {nd : NLNode} (hk : nd.kind = .exp ∨ nd.kind = .relu) (hF : ∀ D ∈ nd.data, ∀ t < D.T, D.F t 0 = 1) (hdt : 0 < nd.dt) (hN : 0 < nlEvents nd.data)
    (hrate : nd.kind = .relu → 1e-16 < (nlEvents nd.data : ℝ) / nlTime nd.dt nd.data) (hs : nd.sigma ≠ some 0) {l : ℝ} (hl : nd.lmbda = some l) (hl0 : 0 ≤ l) (hp : 0 < l ∨ ∃ s, nd.sigma = some s) :
    ∃ w, NLSolves nd (fun _ => True) w := by
  have hp : 0 < l ∨ ∃ s, nd.sigma = some s ∧ s ≠ 0 := hp.imp id fun ⟨s, h⟩ => ⟨s, h, fun h0 => hs (by rw [h, h0])⟩
  have hpos : ∀ w, RatesPos nd w := fun w D _ t _ => (link_bounds hk _).1
  have hT := time_pos hdt hN
  have hN' : (0:ℝ) < nlEvents nd.data := by exact_mod_cast hN
  set n := 1 + nd.K * nd.B with hn
  set q : Vec ℝ → ℝ := fun w => nodeLL nd w - nlPenalty n nd.sigma l w with hq
  suffices hex : ∃ x, ∀ y, q y ≤ q x by
    obtain ⟨x, hx⟩ := hex
    exact ⟨x, (objective_le_iff hN hs hl (fun w _ => hpos w) x).2 ⟨trivial, fun y _ => hx y⟩⟩
  obtain ⟨C, hC⟩ := nlLL_le_slope hdt nd.data
  obtain ⟨κ, hκ, C', hC'⟩ := penalty_grows (n := n) (sigma := nd.sigma) hl0 hp
  -- the starting point: mean rate at every bin
  obtain ⟨x0, hx0⟩ : ∃ x0 : Vec ℝ, nd.kind = .relu → nlEvents nd.data * Real.log 1e-16 - 1e-16 * nlTime nd.dt nd.data < q x0 := by
    by_cases hr : nd.kind = .relu
    · set r := (nlEvents nd.data : ℝ) / nlTime nd.dt nd.data with hrr
      have hr16 := hrate hr
      have hr0 : 0 < r := by positivity
      set x0 : Vec ℝ := fun c => if c = 0 then Real.log (Real.exp (r - 1e-16) - 1) else 0 with hx0
      have hge : 1 < Real.exp (r - 1e-16) := Real.one_lt_exp_iff.2 (by linarith)
      have hpred : ∀ D ∈ nd.data, ∀ t < D.T, nd.kind.link (predictor n x0 D t) = r := by
        intro D hD t ht
        have h1 : predictor n x0 D t = Real.log (Real.exp (r - 1e-16) - 1) := by
          unfold predictor
          rw [Finset.sum_eq_single_of_mem 0 (by simp [hn]) fun c _ hc => by rw [hx0]; dsimp only; rw [if_neg hc, mul_zero]]
          rw [hF D hD t ht, one_mul, hx0]
          dsimp only
          rw [if_pos rfl]
        rw [h1, hr]
        show 1e-16 + Real.log (1 + Real.exp (Real.log (Real.exp (r - 1e-16) - 1))) = r
        rw [Real.exp_log (by linarith), show (1:ℝ) + (Real.exp (r - 1e-16) - 1) = Real.exp (r - 1e-16) by ring, Real.log_exp]
        ring
      have hll : nodeLL nd x0 = nlEvents nd.data * Real.log r - r * nlTime nd.dt nd.data := by
        rw [← nlLL_const]
        unfold nodeLL nlLL
        congr 1
        refine List.map_congr_left fun D hD => Finset.sum_congr rfl fun t ht => ?_
        dsimp only
        rw [hpred D hD t (Finset.mem_range.1 ht)]
      have hpen : nlPenalty n nd.sigma l x0 = 0 := by
        have hz : ∀ c ∈ Ico 1 n, x0 c = 0 := fun c hc => by
          rw [hx0]
          dsimp only
          rw [if_neg (by have := (Finset.mem_Ico.1 hc).1; omega)]
        unfold nlPenalty nlRidge
        rw [Finset.sum_eq_zero (f := fun c => |x0 c|) fun c hc => by rw [hz c hc, abs_zero]]
        cases nd.sigma with
        | none => simp
        | some s =>
          dsimp only
          rw [Finset.sum_eq_zero (f := fun c => x0 c ^ 2) fun c hc => by rw [hz c hc]; norm_num]
          simp
      refine ⟨x0, fun _ => ?_⟩
      rw [hq]
      dsimp only
      rw [hll, hpen, sub_zero]
      have h1 : Real.log (1e-16 / r) < 1e-16 / r - 1 := Real.log_lt_sub_one_of_pos (by positivity) (by rw [Ne, div_eq_one_iff_eq hr0.ne']; exact hr16.ne)
      rw [Real.log_div (by norm_num) hr0.ne'] at h1
      have h2 := mul_lt_mul_of_pos_left h1 hN'
      have h3 : (nlEvents nd.data : ℝ) * (1e-16 / r - 1) = 1e-16 * nlTime nd.dt nd.data - r * nlTime nd.dt nd.data := by
        rw [hrr]
        field_simp
      rw [h3] at h2
      linarith
    · exact ⟨fun _ => 0, fun h => absurd h hr⟩
  have hqle : ∀ w, q w ≤ C - nd.dt / 2 * (nd.data.map fun D => ∑ t ∈ range D.T, nd.kind.link (predictor n w D t)).sum - nlPenalty n nd.sigma l w := by
    intro w
    have := hC (fun D t => nd.kind.link (predictor n w D t)) fun D hD t ht => hpos w D hD t ht
    rw [hq]
    unfold nodeLL
    dsimp only
    linarith
  have hsum0 : ∀ w, 0 ≤ (nd.data.map fun D => ∑ t ∈ range D.T, nd.kind.link (predictor n w D t)).sum := fun w =>
    list_sum_nonneg' _ _ fun D hD => Finset.sum_nonneg fun t ht => (hpos w D hD t (Finset.mem_range.1 ht)).le
  -- weights other than the bias
  set R1 : ℝ := max 0 ((C + C' - q x0) / κ) with hR1
  have hR10 : 0 ≤ R1 := le_max_left _ _
  have far : ∀ y : Vec ℝ, (∃ c, 1 ≤ c ∧ c < n ∧ R1 < |y c|) → q y ≤ q x0 := by
    rintro y ⟨c, h1, hc, hlt⟩
    have h2 := hC' y c h1 hc
    have h3 : (C + C' - q x0) / κ < |y c| := lt_of_le_of_lt (le_max_right _ _) hlt
    rw [div_lt_iff₀ hκ] at h3
    have h4 := hqle y
    have h5 := mul_nonneg (by positivity : 0 ≤ nd.dt / 2) (hsum0 y)
    linarith
  set H : ℝ := (nd.data.map fun D => ∑ t ∈ range D.T, ∑ c ∈ Ico 1 n, |D.F t c| * R1).sum with hH
  have hHb : ∀ y : Vec ℝ, (∀ c, 1 ≤ c → c < n → |y c| ≤ R1) → ∀ D ∈ nd.data, ∀ t < D.T, |predictor n y D t - y 0| ≤ H := by
    intro y hy D hD t ht
    have e : predictor n y D t - y 0 = ∑ c ∈ Ico 1 n, D.F t c * y c := by
      unfold predictor
      rw [Finset.range_eq_Ico, Finset.sum_eq_sum_Ico_succ_bot (by omega), hF D hD t ht]
      ring
    rw [e]
    refine (Finset.abs_sum_le_sum_abs _ _).trans ?_
    have h1 : ∑ c ∈ Ico 1 n, |D.F t c * y c| ≤ ∑ c ∈ Ico 1 n, |D.F t c| * R1 := Finset.sum_le_sum fun c hc => by
      rw [abs_mul]
      exact mul_le_mul_of_nonneg_left (hy c (Finset.mem_Ico.1 hc).1 (Finset.mem_Ico.1 hc).2) (abs_nonneg _)
    have hnn : ∀ D : NLData, ∀ t, 0 ≤ ∑ c ∈ Ico 1 n, |D.F t c| * R1 := fun D t => Finset.sum_nonneg fun c _ => mul_nonneg (abs_nonneg _) hR10
    have h2 : ∑ c ∈ Ico 1 n, |D.F t c| * R1 ≤ ∑ t ∈ range D.T, ∑ c ∈ Ico 1 n, |D.F t c| * R1 := Finset.single_le_sum (f := fun t => ∑ c ∈ Ico 1 n, |D.F t c| * R1) (fun t _ => hnn D t) (Finset.mem_range.2 ht)
    exact h1.trans (h2.trans (list_le_sum' (f := fun D : NLData => ∑ t ∈ range D.T, ∑ c ∈ Ico 1 n, |D.F t c| * R1) (fun D _ => Finset.sum_nonneg fun t _ => hnn D t) hD))
  -- a large bias
  set R2 : ℝ := H + (C - q x0) / (nd.dt / 2) with hR2
  have farUp : ∀ y : Vec ℝ, (∀ c, 1 ≤ c → c < n → |y c| ≤ R1) → R2 < y 0 → q y ≤ q x0 := by
    intro y hy hlt
    obtain ⟨D, hD, hDT⟩ := bin_exists hN
    have h1 := abs_le.1 (hHb y hy D hD 0 hDT)
    have h2 := (link_bounds hk (predictor n y D 0)).2.1
    have h3 : nd.kind.link (predictor n y D 0) ≤ ∑ t ∈ range D.T, nd.kind.link (predictor n y D t) := Finset.single_le_sum (f := fun t => nd.kind.link (predictor n y D t)) (fun t ht => (hpos y D hD t (Finset.mem_range.1 ht)).le) (Finset.mem_range.2 hDT)
    have h4 := list_le_sum' (l := nd.data) (f := fun D : NLData => ∑ t ∈ range D.T, nd.kind.link (predictor n y D t)) (fun D hD => Finset.sum_nonneg fun t ht => (hpos y D hD t (Finset.mem_range.1 ht)).le) hD
    have h5 : (C - q x0) / (nd.dt / 2) < y 0 - H := by rw [hR2] at hlt; linarith
    rw [div_lt_iff₀ (by positivity)] at h5
    have h6 := hqle y
    have h7 := penalty_nonneg (n := n) (sigma := nd.sigma) hl0 y
    have h8 : y 0 - H ≤ (nd.data.map fun D => ∑ t ∈ range D.T, nd.kind.link (predictor n y D t)).sum := by linarith
    have h9 := mul_le_mul_of_nonneg_left h8 (by positivity : 0 ≤ nd.dt / 2)
    linarith
  -- a bias far below zero
  obtain ⟨M, hM⟩ : ∃ M : ℝ, ∀ x, x ≤ M → nlEvents nd.data * Real.log (nd.kind.floor + Real.exp x) - nd.kind.floor * nlTime nd.dt nd.data ≤ q x0 := by
    rcases hk with hk | hk
    · rw [hk]
      refine ⟨q x0 / nlEvents nd.data, fun x hx => ?_⟩
      show _ * Real.log (0 + Real.exp x) - 0 * _ ≤ _
      rw [zero_add, Real.log_exp, zero_mul, sub_zero]
      rw [le_div_iff₀ hN'] at hx
      linarith
    · rw [hk]
      have hlim : Filter.Tendsto (fun x : ℝ => (nlEvents nd.data : ℝ) * Real.log (1e-16 + Real.exp x) - 1e-16 * nlTime nd.dt nd.data) Filter.atBot (nhds (nlEvents nd.data * Real.log (1e-16 + 0) - 1e-16 * nlTime nd.dt nd.data)) := by
        refine Filter.Tendsto.sub_const (Filter.Tendsto.const_mul _ ?_) _
        exact Filter.Tendsto.log (Real.tendsto_exp_atBot.const_add _) (by norm_num)
      rw [add_zero] at hlim
      have hev := hlim.eventually (eventually_le_nhds (hx0 hk))
      obtain ⟨M, hM⟩ := Filter.eventually_atBot.1 hev
      exact ⟨M, fun x hx => hM x hx⟩
  have farDown : ∀ y : Vec ℝ, (∀ c, 1 ≤ c → c < n → |y c| ≤ R1) → y 0 ≤ M - H → q y ≤ q x0 := by
    intro y hy hle
    have h1 : nodeLL nd y ≤ nlEvents nd.data * Real.log (nd.kind.floor + Real.exp M) - nd.kind.floor * nlTime nd.dt nd.data := by
      refine nlLL_le_small hdt.le nd.data fun D hD t ht => ?_
      obtain ⟨b1, _, b3, b4⟩ := link_bounds hk (predictor n y D t)
      refine ⟨b1, b3, b4.trans ?_⟩
      have h2 := abs_le.1 (hHb y hy D hD t ht)
      have h3 := Real.exp_le_exp.2 (by linarith [h2.2] : predictor n y D t ≤ M)
      linarith
    have h2 := hM M le_rfl
    have h3 := penalty_nonneg (n := n) (sigma := nd.sigma) hl0 y
    rw [hq] at h2 ⊢
    dsimp only at h2 ⊢
    linarith
  refine max_exists (n := n) ?_ ?_ x0 (max R1 (max R2 (H - M))) ?_
  · refine Continuous.sub ?_ (penalty_cont n nd.sigma l)
    exact continuousOn_univ.1 ((nodeLL_contOn nd).mono fun w _ => hpos w)
  · intro w w' h
    rw [hq]
    dsimp only
    rw [nodeLL_congr' (w := w) (w' := w') fun D _ t _ => predictor_congr h D t]
    congr 1
    have hi : ∀ c ∈ Ico 1 n, w c = w' c := fun c hc => h c (Finset.mem_Ico.1 hc).2
    have e1 : ∑ c ∈ Ico 1 n, |w c| = ∑ c ∈ Ico 1 n, |w' c| := Finset.sum_congr rfl fun c hc => by rw [hi c hc]
    have e2 : ∑ c ∈ Ico 1 n, w c ^ 2 = ∑ c ∈ Ico 1 n, w' c ^ 2 := Finset.sum_congr rfl fun c hc => by rw [hi c hc]
    unfold nlPenalty nlRidge
    rw [e1, e2]
  · rintro y ⟨c, hc, hlt⟩
    by_cases hbig : ∃ c, 1 ≤ c ∧ c < n ∧ R1 < |y c|
    · exact far y hbig
    · push Not at hbig
      have h0 : c = 0 := by
        by_contra h0
        have := hbig c (by omega) hc
        exact absurd (lt_of_le_of_lt (le_max_left _ _) hlt) (not_lt.2 this)
      subst h0
      have h1 : max R2 (H - M) < |y 0| := lt_of_le_of_lt (le_max_right _ _) hlt
      rcases abs_cases (y 0) with ⟨e, _⟩ | ⟨e, _⟩
      · exact farUp y hbig (lt_of_le_of_lt (le_max_left _ _) (e ▸ h1))
      · refine farDown y hbig ?_
        have := lt_of_le_of_lt (le_max_right _ _) (e ▸ h1)
        linarith

theorem link_strict {kind : NLKind} (hk : kind = .exp ∨ kind = .relu) {x y : ℝ} (h : x < y) : kind.link x < kind.link y := by
  have he := Real.exp_lt_exp.2 h
  rcases hk with rfl | rfl
  · exact he
  · have := Real.log_lt_log (by positivity : (0:ℝ) < 1 + Real.exp x) (by linarith : 1 + Real.exp x < 1 + Real.exp y)
    show 1e-16 + Real.log (1 + Real.exp x) < 1e-16 + Real.log (1 + Real.exp y)
    linarith

/-- **C101 (violated without penalties).** With the default penalties (`sigma = inf`, `lmbda = 0`) an exponential or rectified-linear node has no best weights as soon as one regressor is never negative, is zero in every bin with an event and
positive in some bin: making its weight smaller always improves the fit, so the optimiser runs off to minus infinity. -/
theorem C101_unpenalised_no_solution_violated {nd : NLNode} (hk : nd.kind = .exp ∨ nd.kind = .relu) (hdt : 0 < nd.dt) (hN : 0 < nlEvents nd.data) (hs : nd.sigma = none) (hl : nd.lmbda = some 0)
    {c : ℕ} (hc : c < 1 + nd.K * nd.B) (hF : ∀ D ∈ nd.data, ∀ t < D.T, 0 ≤ D.F t c ∧ (0 < D.S t → D.F t c = 0)) (hsome : ∃ D ∈ nd.data, ∃ t < D.T, 0 < D.F t c) :
    ¬ ∃ w, NLSolves nd (fun _ => True) w := by
  have hpos : ∀ w, RatesPos nd w := fun w D _ t _ => (link_bounds hk _).1
  rintro ⟨w, hw⟩
  have hle := ((objective_le_iff hN (by rw [hs]; simp) hl (fun w _ => hpos w) w).1 hw).2 (fun i => if i = c then w i - 1 else w i) trivial
  have hp : ∀ w : Vec ℝ, nlPenalty (1 + nd.K * nd.B) nd.sigma 0 w = 0 := fun w => by unfold nlPenalty nlRidge; rw [hs]; simp
  rw [hp, hp, sub_zero, sub_zero] at hle
  have hpred : ∀ D t, predictor (1 + nd.K * nd.B) (fun i => if i = c then w i - 1 else w i) D t = predictor (1 + nd.K * nd.B) w D t - D.F t c := by
    intro D t
    unfold predictor
    rw [← Finset.add_sum_erase _ _ (Finset.mem_range.2 hc), ← Finset.add_sum_erase (range (1 + nd.K * nd.B)) (fun i => D.F t i * w i) (Finset.mem_range.2 hc)]
    have e : ∀ i ∈ (range (1 + nd.K * nd.B)).erase c, D.F t i * (if i = c then w i - 1 else w i) = D.F t i * w i := fun i hi => by rw [if_neg (Finset.ne_of_mem_erase hi)]
    dsimp only
    rw [if_pos rfl, Finset.sum_congr rfl e]
    ring
  have hterm : ∀ D ∈ nd.data, ∀ t < D.T, ∀ x, ((D.S t : ℝ) * Real.log (nd.kind.link x) - nd.kind.link x * nd.dt ≤ (D.S t : ℝ) * Real.log (nd.kind.link (x - D.F t c)) - nd.kind.link (x - D.F t c) * nd.dt) ∧
      (0 < D.F t c → (D.S t : ℝ) * Real.log (nd.kind.link x) - nd.kind.link x * nd.dt < (D.S t : ℝ) * Real.log (nd.kind.link (x - D.F t c)) - nd.kind.link (x - D.F t c) * nd.dt) := by
    intro D hD t ht x
    obtain ⟨h0, h1⟩ := hF D hD t ht
    have hstrict : 0 < D.F t c → (D.S t : ℝ) * Real.log (nd.kind.link x) - nd.kind.link x * nd.dt < (D.S t : ℝ) * Real.log (nd.kind.link (x - D.F t c)) - nd.kind.link (x - D.F t c) * nd.dt := by
      intro hp
      have hS : D.S t = 0 := by
        by_contra hS
        rw [h1 (Nat.pos_of_ne_zero hS)] at hp
        exact lt_irrefl _ hp
      rw [hS]
      have := mul_lt_mul_of_pos_right (link_strict hk (by linarith : x - D.F t c < x)) hdt
      simp only [Nat.cast_zero, zero_mul, zero_sub]
      linarith
    refine ⟨?_, hstrict⟩
    rcases h0.lt_or_eq with hp | hp
    · exact (hstrict hp).le
    · rw [← hp, sub_zero]
  have hlt : nodeLL nd w < nodeLL nd (fun i => if i = c then w i - 1 else w i) := by
    unfold nodeLL nlLL
    obtain ⟨D0, hD0, t0, ht0, hp0⟩ := hsome
    refine List.sum_lt_sum _ _ (fun D hD => ?_) ⟨D0, hD0, ?_⟩
    · refine Finset.sum_le_sum fun t ht => ?_
      dsimp only
      rw [hpred]
      exact (hterm D hD t (Finset.mem_range.1 ht) _).1
    · refine Finset.sum_lt_sum (fun t ht => ?_) ⟨t0, Finset.mem_range.2 ht0, ?_⟩
      · dsimp only
        rw [hpred]
        exact (hterm D0 hD0 t (Finset.mem_range.1 ht) _).1
      · dsimp only
        rw [hpred]
        exact (hterm D0 hD0 t0 ht0 _).2 hp0
  linarith

/-- an exponential node of a default one-process model whose data are a single event followed by one silent bin with a positive regressor meets the hypotheses -/
example : ∃ nd : NLNode, nd.kind = .exp ∧ 0 < nd.dt ∧ 0 < nlEvents nd.data ∧ nd.sigma = none ∧ nd.lmbda = some 0 ∧ 1 < 1 + nd.K * nd.B ∧
    (∀ D ∈ nd.data, ∀ t < D.T, 0 ≤ D.F t 1 ∧ (0 < D.S t → D.F t 1 = 0)) ∧ ∃ D ∈ nd.data, ∃ t < D.T, 0 < D.F t 1 := by
  refine ⟨{ nlNode .exp 1 1 1 none (some 0) with data := [demoNL] }, rfl, one_pos, ?_, rfl, rfl, by simp [nlNode], ?_, demoNL, by simp, 1, by simp [demoNL], by simp [demoNL]⟩
  · show 0 < nlEvents [demoNL]
    unfold nlEvents demoNL
    simp
  · intro D hD t ht
    rw [show D = demoNL from List.mem_singleton.1 hD]
    refine ⟨?_, fun h => ?_⟩
    · simp [demoNL]
    · have : t = 0 := by
        by_contra h0
        simp [demoNL, h0] at h
      simp [demoNL, this]

/-- regressors made by `add_data` from nonnegative counts and a nonnegative basis start with a one and have no negative entry -/
theorem regressors_of_add {K B L : ℕ} (hB : 0 < B) {basis : Mat ℝ} (hb : ∀ l < L, ∀ b < B, 0 ≤ basis l b) {a : NLArgs} (hv : NLValid K B a) (hn : a.F = none) {D : NLSet} (hD : NLSetOf K B L basis a D) :
    ∀ t < D.T, D.F t 0 = 1 ∧ ∀ c < 1 + K * B, 0 ≤ D.F t c := by
  obtain ⟨h1, h2, _, h4⟩ := hD
  intro t ht
  rw [h1] at ht
  obtain ⟨h5, h6⟩ := h4 hn t ht
  refine ⟨h5, fun c hc => ?_⟩
  rcases Nat.eq_zero_or_pos c with rfl | hc0
  · rw [h5]; norm_num
  · obtain ⟨j, rfl⟩ : ∃ j, c = 1 + j := ⟨c - 1, by omega⟩
    have hj : j < K * B := by omega
    have hk : j / B < K := by rw [Nat.div_lt_iff_lt_mul hB]; exact hj
    have e : 1 + j = 1 + j / B * B + j % B := by rw [add_assoc, Nat.div_add_mod']
    rw [e, h6 _ hk _ (Nat.mod_lt _ hB)]
    unfold filtered
    refine Finset.sum_nonneg fun l hl => ?_
    split
    · refine mul_nonneg (hb l (Finset.mem_range.1 hl) _ (Nat.mod_lt _ hB)) ?_
      have := hv.2.2.2.1 (t - l) (by omega) (j / B) hk
      dsimp only
      exact_mod_cast this
    · exact le_rfl

/-- **C101 (the whole fit).** For a process of linear nodes as in `C101_linear_solution_exists` there are optimiser results that keep the contract of `C74_fit_joint_maximum`; `fit_with_bfgs` with them returns a process with the same data, all of
whose weights are at least `1e-16`, whose log likelihood is finite and, less the penalties, largest among all weights that are at least `1e-16`. -/
theorem C101_linear_fit {P : NLProc} {l : ℝ} (hl0 : 0 ≤ l)
    (h : ∀ nd ∈ P.nodes, nd.kind = .linear ∧ NLRegressors nd ∧ 0 < nd.dt ∧ 0 < nlEvents nd.data ∧ nd.sigma ≠ some 0 ∧ nd.lmbda = some l) :
    ∃ opt P', nlFit opt P = .ok P' ∧ P' = P.withW P'.fullW ∧ (∀ k (hk : k < P.nodes.length), ∀ c < 1 + P.nodes[k].K * P.nodes[k].B, 1e-16 ≤ P'.fullW k c) ∧ ∃ v, nlLogLik none P' = .ok v ∧
      ∀ w : Mat ℝ, (∀ k (hk : k < P.nodes.length), ∀ c < 1 + P.nodes[k].K * P.nodes[k].B, 1e-16 ≤ w k c) →
        ∃ v', nlLogLik none (P.withW w) = .ok v' ∧ v' - procPenalty P l w ≤ v - procPenalty P l P'.fullW := by
  classical
  set opt : NLNode → Vec ℝ := fun nd => if hx : ∃ w, NLSolves nd nd.inBox w then hx.choose else fun _ => 0 with hopt
  have hsol : ∀ nd ∈ P.nodes, NLSolves nd nd.inBox (opt nd) := by
    intro nd hnd
    obtain ⟨h1, h2, h3, h4, h5, h6⟩ := h nd hnd
    obtain ⟨w, _, hw⟩ := C101_linear_solution_exists h1 h2 h3 h4 h5 h6 hl0
    have hx : ∃ w, NLSolves nd nd.inBox w := ⟨w, hw⟩
    rw [hopt]
    dsimp only
    rw [dif_pos hx]
    exact hx.choose_spec
  have hkind : ∀ nd ∈ P.nodes, nd.kind ≠ .homog := fun nd hnd => by rw [(h nd hnd).1]; simp
  obtain ⟨P', hfit, hP', v, hv, hmax⟩ := C74_fit_joint_maximum (l := l) opt hkind (fun nd hnd => (h nd hnd).2.2.2.1) (fun nd hnd => (h nd hnd).2.2.2.2.1) (fun nd hnd => (h nd hnd).2.2.2.2.2) hsol
  refine ⟨opt, P', hfit, hP', ?_, v, hv, ?_⟩
  · intro k hk c hc
    have hfit' := hfit
    unfold nlFit at hfit'
    rw [mapNodes_fit P.nodes hkind] at hfit'
    rw [← Except.ok.inj hfit']
    unfold NLProc.fullW
    dsimp only
    rw [List.getElem?_map, List.getElem?_eq_getElem hk]
    exact (hsol _ (List.getElem_mem hk)).1 (h _ (List.getElem_mem hk)).1 c hc
  · intro w hw
    have hrp : ∀ nd ∈ (P.withW w).nodes, RatesPos nd nd.w := by
      intro nd hnd
      unfold NLProc.withW at hnd
      obtain ⟨k, hk, rfl⟩ := List.mem_mapIdx.1 hnd
      have := h _ (List.getElem_mem hk)
      exact linear_ratesPos (nd := { P.nodes[k] with w := w k }) this.1 this.2.1 (hw k hk)
    obtain ⟨v', hv'⟩ := nlLogLik_ok_iff.2 hrp
    exact ⟨v', hv', hmax w v' (fun k hk _ => hw k hk) hv'⟩

/-- a one-process linear model with default penalties and one event meets the hypotheses of `C101_linear_fit`, and so of `C101_linear_solution_exists` -/
example : ∃ P : NLProc, P.nodes ≠ [] ∧ ∀ nd ∈ P.nodes, nd.kind = .linear ∧ NLRegressors nd ∧ 0 < nd.dt ∧ 0 < nlEvents nd.data ∧ nd.sigma ≠ some 0 ∧ nd.lmbda = some 0 := by
  refine ⟨{ nlNew .linear 1 1 2 1 (fun _ _ => 1) with nodes := [{ nlNode .linear 1 1 1 none (some 0) with data := [demoNL] }] }, by simp, fun nd hnd => ?_⟩
  rw [show nd = _ from List.mem_singleton.1 hnd]
  refine ⟨rfl, ?_, one_pos, ?_, by simp [nlNode], rfl⟩
  · intro D hD t ht
    rw [show D = demoNL from List.mem_singleton.1 hD]
    refine ⟨rfl, fun c _ => ?_⟩
    unfold demoNL
    dsimp only
    split <;> simp
  · show 0 < nlEvents [demoNL]
    unfold nlEvents demoNL
    simp

/-- a penalised exponential and a penalised rectified-linear node meet the hypotheses of `C101_penalised_solution_exists` -/
example (kind : NLKind) (hk : kind = .exp ∨ kind = .relu) : ∃ nd : NLNode, nd.kind = kind ∧ (∀ D ∈ nd.data, ∀ t < D.T, D.F t 0 = 1) ∧ 0 < nd.dt ∧ 0 < nlEvents nd.data ∧
    1e-16 < (nlEvents nd.data : ℝ) / nlTime nd.dt nd.data ∧ nd.sigma ≠ some 0 ∧ nd.lmbda = some 0 ∧ ∃ s, nd.sigma = some s := by
  refine ⟨{ nlNode kind 1 1 1 (some 1) (some 0) with data := [demoNL] }, rfl, ?_, one_pos, ?_, ?_, by simp [nlNode], rfl, 1, rfl⟩
  · intro D hD t ht
    rw [show D = demoNL from List.mem_singleton.1 hD]
    rfl
  · show 0 < nlEvents [demoNL]
    unfold nlEvents demoNL
    simp
  · show (1e-16 : ℝ) < (nlEvents [demoNL] : ℝ) / nlTime 1 [demoNL]
    unfold nlEvents nlTime demoNL
    norm_num [Finset.sum_range_succ]

/-- **C38 (nonlinear models, the rate).** When no summed weight is zero, the activation of process `k2` at a bin whose regressors start with a one is `bias[k2]` plus, over all source processes and basis functions, `W * G` times the regressor:
`bias`, `W` and `G` together describe the fitted model. -/
theorem C38_nonlinear_rate {P : NLProc} (h0 : ∀ k1 < P.K, ∀ k2 < P.K, P.getW k1 k2 ≠ 0) :
    ∃ G, P.getG = .ok G ∧ ∀ k2 < P.K, ∀ D : NLData, ∀ t, D.F t 0 = 1 →
      predictor (1 + P.K * P.B) (P.fullW k2) D t = P.getBias k2 + ∑ k1 ∈ range P.K, ∑ b ∈ range P.B, P.getW k1 k2 * G k1 k2 b * D.F t (1 + k1 * P.B + b) := by
  obtain ⟨G, hG, h⟩ := C38_nonlinear_G h0
  refine ⟨G, hG, fun k2 h2 D t h1 => ?_⟩
  unfold predictor
  rw [add_comm 1, Finset.sum_range_succ', h1, one_mul, add_comm, std_sum_cols]
  congr 1
  refine Finset.sum_congr rfl fun k1 hk1 => Finset.sum_congr rfl fun b hb => ?_
  rw [(h k1 (Finset.mem_range.1 hk1) k2 h2).2 b (Finset.mem_range.1 hb), show k1 * P.B + b + 1 = 1 + k1 * P.B + b by omega, mul_comm]

end PyHawkes
