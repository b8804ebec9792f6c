import Verif.Props.StandardFit
import Verif.Props.StandardMisc
import Verif.Props.Examples
set_option linter.unusedSectionVars false
set_option linter.unusedVariables false
/-! # C115: `compute_gradient` tells whether fitted weights are a solution -/
namespace PyHawkes
open Finset Spec Filter Topology

variable {M : StdModel} {k : ℕ}

/-- specification: the weights `x` that the optimiser returned for process `k` solve the problem `fit_with_bfgs` passed to it, among the points of the box that leave forbidden self weights alone -/
def Spec.SolvesFit (M : StdModel) (k : ℕ) (x : Vec ℝ) : Prop :=
  InBfgsBox M x ∧ ∀ y, InBfgsBox M y → (M.allowSelf = false → ∀ c, IsSelf M.B k c → y c = x c) → ∃ a b, bfgsObjective M k x = .ok a ∧ bfgsObjective M k y = .ok b ∧ a ≤ b

/-- specification: the number of events of process `k` in the data -/
def Spec.stdEvents (M : StdModel) (k : ℕ) : ℕ := (M.data.map fun D => ∑ t ∈ range D.T, D.S t k).sum

/-- specification: the number of events of process `k` that the weights predict for the data: the sum of its rates over all bins times the bin width -/
noncomputable def Spec.stdPredicted (M : StdModel) (k : ℕ) (w : Vec ℝ) : ℝ := (M.data.map fun D => ∑ t ∈ range D.T, lin (1 + M.K * M.B) D.F w t * M.dt).sum

theorem box_pos {x : Vec ℝ} (h : InBfgsBox M x) : PosRow (1 + M.K * M.B) x := fun c hc => lt_of_lt_of_le (by norm_num) (h c hc).1

theorem bfgsObjective_box (hM : StdOk M) (h1 : 1 ≤ M.alpha) (hk : k < M.K) {x : Vec ℝ} (h : InBfgsBox M x) : bfgsObjective M k x = .ok (-(stdLP M k x)) := by
  unfold bfgsObjective
  rw [logPost_setRow hM h1 hk (box_pos h)]

theorem deriv_nonpos {f : ℝ → ℝ} {d ε : ℝ} (hd : HasDerivAt f d 0) (hε : 0 < ε) (h : ∀ s, 0 < s → s ≤ ε → f s ≤ f 0) : d ≤ 0 := by
  have ht := (hasDerivAt_iff_tendsto_slope_zero.1 hd).mono_left (nhdsWithin_mono (0:ℝ) (fun s (hs : s ∈ Set.Ioi (0:ℝ)) => ne_of_gt hs))
  refine le_of_tendsto ht ?_
  filter_upwards [Ioc_mem_nhdsGT hε] with s hs
  have := h s hs.1 hs.2
  rw [zero_add, smul_eq_mul]
  exact mul_nonpos_of_nonneg_of_nonpos (inv_nonneg.2 hs.1.le) (by linarith)

/-- **C115 (certificate).** For well-formed data and `alpha ≥ 1`, weights of process `k` inside the bounds are a solution of the problem `fit_with_bfgs` solves for it exactly if every entry of `compute_gradient(k)` that belongs to a weight
above its lower bound is nonnegative and every entry that belongs to a weight below its upper bound is nonpositive — so zero away from the bounds. -/
theorem C115_certificate (hM : StdOk M) (h1 : 1 ≤ M.alpha) (hk : k < M.K) (hx : InBfgsBox M (M.weights k)) (hs : M.allowSelf = false → ∀ c, IsSelf M.B k c → |M.weights k c| ≤ 1e-8)
    {g : Vec ℝ} (hg : stdGradient M k .none = .ok g) :
    SolvesFit M k (M.weights k) ↔
      ∀ c < 1 + M.K * M.B, (1e-16 < M.weights k c → 0 ≤ g c) ∧ ((1 ≤ c → ∀ m ∈ M.wMax, M.weights k c < m) → g c ≤ 0) := by
  have hw := box_pos hx
  rw [stdGradient_eq hM h1 hk hw hs] at hg
  have hg := Except.ok.inj hg
  have hgs : ∀ c, (M.allowSelf = false ∧ IsSelf M.B k c) → g c = 0 := fun c hc => by rw [← hg]; exact if_pos ⟨hc.1, hc.2.1, hc.2.2⟩
  have hgn : ∀ c, ¬ (M.allowSelf = false ∧ IsSelf M.B k c) → g c = lpGrad M k (M.weights k) c := fun c hc => by
    rw [← hg]; exact if_neg fun h => hc ⟨h.1, h.2.1, h.2.2⟩
  constructor
  · rintro ⟨-, hopt⟩ c hc
    by_cases hself : M.allowSelf = false ∧ IsSelf M.B k c
    · rw [hgs c hself]; exact ⟨fun _ => le_rfl, fun _ => le_rfl⟩
    -- moving coordinate `c` by `s * σ`
    have move : ∀ σ ε : ℝ, 0 < ε → (∀ s, 0 < s → s ≤ ε → InBfgsBox M fun d => M.weights k d + s * if d = c then σ else 0) → g c * σ ≤ 0 := by
      intro σ ε hε hbox
      have hd := stdLP_hasDerivAt hM (k := k) hw fun d => if d = c then σ else 0
      have hsum : ∑ d ∈ range (1 + M.K * M.B), lpGrad M k (M.weights k) d * (if d = c then σ else 0) = g c * σ := by
        rw [hgn c hself]
        simp [hc]
      rw [hsum] at hd
      refine deriv_nonpos hd hε fun s h0 hsε => ?_
      have hb := hbox s h0 hsε
      obtain ⟨a, b, e1, e2, hab⟩ := hopt _ hb fun ha d hd' => by
        have : d ≠ c := fun h => hself ⟨ha, h ▸ hd'⟩
        rw [if_neg this, mul_zero, add_zero]
      rw [bfgsObjective_box hM h1 hk hx] at e1
      rw [bfgsObjective_box hM h1 hk hb] at e2
      rw [← Except.ok.inj e1, ← Except.ok.inj e2] at hab
      simp only [zero_mul, add_zero]
      linarith
    refine ⟨fun hlow => ?_, fun hup => ?_⟩
    · have := move (-1) (M.weights k c - 1e-16) (by linarith) fun s h0 hsε d hd => by
        have hd' := hx d hd
        by_cases hdc : d = c
        · subst hdc
          simp only [if_true]
          exact ⟨by linarith, fun h m hm => by have := hd'.2 h m hm; linarith⟩
        · simp only [if_neg hdc, mul_zero, add_zero]; exact hd'
      linarith
    · -- room above
      obtain ⟨ε, hε, hεm⟩ : ∃ ε : ℝ, 0 < ε ∧ (1 ≤ c → ∀ m ∈ M.wMax, M.weights k c + ε ≤ m) := by
        by_cases h1c : 1 ≤ c
        · cases hm : M.wMax with
          | none => exact ⟨1, one_pos, fun _ m hm' => by cases hm'⟩
          | some m =>
            refine ⟨m - M.weights k c, sub_pos.2 (hup h1c m hm), fun _ m' hm' => ?_⟩
            cases hm'
            linarith
        · exact ⟨1, one_pos, fun h => absurd h h1c⟩
      have := move 1 ε hε fun s h0 hsε d hd => by
        have hd' := hx d hd
        by_cases hdc : d = c
        · subst hdc
          simp only [if_true]
          exact ⟨by linarith [hd'.1], fun h m hm => by have := hεm h m hm; linarith⟩
        · simp only [if_neg hdc, mul_zero, add_zero]; exact hd'
      linarith
  · intro hkkt
    refine ⟨hx, fun y hy hsame => ⟨_, _, bfgsObjective_box hM h1 hk hx, bfgsObjective_box hM h1 hk hy, ?_⟩⟩
    have hsup := stdLP_supergradient hM h1 (k := k) hw (box_pos hy)
    have hle : ∑ c ∈ range (1 + M.K * M.B), lpGrad M k (M.weights k) c * (y c - M.weights k c) ≤ 0 := by
      refine sum_nonpos fun c hc => ?_
      have hc := mem_range.1 hc
      by_cases hself : M.allowSelf = false ∧ IsSelf M.B k c
      · rw [hsame hself.1 c hself.2, sub_self, mul_zero]
      rw [← hgn c hself]
      obtain ⟨a, b⟩ := hkkt c hc
      rcases lt_trichotomy (y c) (M.weights k c) with h | h | h
      · exact mul_nonpos_of_nonneg_of_nonpos (a (lt_of_le_of_lt (hy c hc).1 h)) (by linarith)
      · rw [h, sub_self, mul_zero]
      · exact mul_nonpos_of_nonpos_of_nonneg (b fun h1c m hm => lt_of_lt_of_le h ((hy c hc).2 h1c m hm)) (by linarith)
    linarith

/-- **C115 (tolerance).** If the gradient meets these conditions only up to a tolerance `ε`, as after a fit that stopped early, the objective at the fitted weights exceeds its value at any other point of the box by at most `ε` times the distance (sum of absolute differences). -/
theorem C115_tolerance (hM : StdOk M) (h1 : 1 ≤ M.alpha) (hk : k < M.K) (hx : InBfgsBox M (M.weights k)) (hs : M.allowSelf = false → ∀ c, IsSelf M.B k c → |M.weights k c| ≤ 1e-8)
    {g : Vec ℝ} (hg : stdGradient M k .none = .ok g) {ε : ℝ} (h0 : 0 ≤ ε)
    (hε : ∀ c < 1 + M.K * M.B, (1e-16 < M.weights k c → -ε ≤ g c) ∧ ((1 ≤ c → ∀ m ∈ M.wMax, M.weights k c < m) → g c ≤ ε))
    {y : Vec ℝ} (hy : InBfgsBox M y) (hsame : M.allowSelf = false → ∀ c, IsSelf M.B k c → y c = M.weights k c) :
    ∃ a b, bfgsObjective M k (M.weights k) = .ok a ∧ bfgsObjective M k y = .ok b ∧ a ≤ b + ε * ∑ c ∈ range (1 + M.K * M.B), |y c - M.weights k c| := by
  have hw := box_pos hx
  rw [stdGradient_eq hM h1 hk hw hs] at hg
  have hg := Except.ok.inj hg
  refine ⟨_, _, bfgsObjective_box hM h1 hk hx, bfgsObjective_box hM h1 hk hy, ?_⟩
  have hsup := stdLP_supergradient hM h1 (k := k) hw (box_pos hy)
  have hle : ∑ c ∈ range (1 + M.K * M.B), lpGrad M k (M.weights k) c * (y c - M.weights k c) ≤ ε * ∑ c ∈ range (1 + M.K * M.B), |y c - M.weights k c| := by
    rw [mul_sum]
    refine sum_le_sum fun c hc => ?_
    have hc := mem_range.1 hc
    by_cases hself : M.allowSelf = false ∧ IsSelf M.B k c
    · rw [hsame hself.1 c hself.2, sub_self, mul_zero, abs_zero, mul_zero]
    have hgn : g c = lpGrad M k (M.weights k) c := by
      rw [← hg]; exact if_neg fun h => hself ⟨h.1, h.2.1, h.2.2⟩
    rw [← hgn]
    obtain ⟨a, b⟩ := hε c hc
    rcases lt_trichotomy (y c) (M.weights k c) with h | h | h
    · rw [abs_of_neg (by linarith)]
      have := a (lt_of_le_of_lt (hy c hc).1 h)
      nlinarith
    · rw [h, sub_self, mul_zero, abs_zero, mul_zero]
    · rw [abs_of_pos (by linarith)]
      have := b fun h1c m hm => lt_of_lt_of_le h ((hy c hc).2 h1c m hm)
      nlinarith
  linarith

theorem sum_list_swap {α : Type*} (l : List α) (s : Finset ℕ) (f : α → ℕ → ℝ) : ∑ c ∈ s, (l.map fun a => f a c).sum = (l.map fun a => ∑ c ∈ s, f a c).sum := by
  induction l with
  | nil => simp
  | cons a l ih => simp only [List.map_cons, List.sum_cons, sum_add_distrib, ih]

/-- the gradient along the weights themselves -/
theorem lpGrad_scale (hM : StdOk M) {w : Vec ℝ} (hw : PosRow (1 + M.K * M.B) w) :
    ∑ c ∈ range (1 + M.K * M.B), lpGrad M k w c * w c = (stdEvents M k : ℝ) - stdPredicted M k w + ∑ c ∈ range (M.K * M.B), ((M.alpha - 1) - M.beta * w (c + 1)) := by
  unfold lpGrad
  simp only [add_mul, sum_add_distrib]
  congr 1
  · simp only [← List.sum_map_mul_right]
    rw [sum_list_swap]
    unfold stdEvents stdPredicted
    have : ∀ l : List StdData, (∀ D ∈ l, StdDataOk M.K M.B D) →
        (l.map fun D => ∑ c ∈ range (1 + M.K * M.B), (∑ t ∈ range D.T, ((D.S t k : ℝ) / lin (1 + M.K * M.B) D.F w t - M.dt) * D.F t c) * w c).sum
          = (((l.map fun D => ∑ t ∈ range D.T, D.S t k).sum : ℕ) : ℝ) - (l.map fun D => ∑ t ∈ range D.T, lin (1 + M.K * M.B) D.F w t * M.dt).sum := by
      intro l
      induction l with
      | nil => intro _; simp
      | cons D l ih =>
        intro h
        simp only [List.map_cons, List.sum_cons]
        rw [ih fun D' h' => h D' (List.mem_cons_of_mem _ h')]
        have hD := h D List.mem_cons_self
        have e : ∑ c ∈ range (1 + M.K * M.B), (∑ t ∈ range D.T, ((D.S t k : ℝ) / lin (1 + M.K * M.B) D.F w t - M.dt) * D.F t c) * w c
            = ∑ t ∈ range D.T, ((D.S t k : ℝ) - lin (1 + M.K * M.B) D.F w t * M.dt) := by
          simp only [sum_mul]
          rw [sum_comm]
          refine sum_congr rfl fun t ht => ?_
          have hl := lin_pos hD hw (mem_range.1 ht)
          have : ∑ c ∈ range (1 + M.K * M.B), ((D.S t k : ℝ) / lin (1 + M.K * M.B) D.F w t - M.dt) * D.F t c * w c
              = ((D.S t k : ℝ) / lin (1 + M.K * M.B) D.F w t - M.dt) * lin (1 + M.K * M.B) D.F w t := by
            conv_rhs => rw [show lin (1 + M.K * M.B) D.F w t = ∑ c ∈ range (1 + M.K * M.B), D.F t c * w c from rfl, mul_sum]
            exact sum_congr rfl fun c _ => by rw [mul_assoc]; rfl
          rw [this, sub_mul, div_mul_cancel₀ _ hl.ne']
          ring
        rw [e, sum_sub_distrib]
        push_cast
        ring
    exact this M.data hM
  · rw [add_comm 1, sum_range_succ']
    simp only [if_true, zero_mul, add_zero]
    refine sum_congr rfl fun c hc => ?_
    rw [if_neg (Nat.succ_ne_zero c), sub_mul, div_mul_cancel₀ _ (hw (c + 1) (by have := mem_range.1 hc; omega)).ne']

/-- **C115 (predicted and observed events).** Without upper bound and with self connections allowed, at a solution the number of events of the process that its fitted rates predict is at least the observed number plus the pull of the prior,
`K B (alpha - 1) - beta * (sum of the fitted weights)`; and it is exactly that if no weight is at its lower bound. -/
theorem C115_predicted_events (hM : StdOk M) (h1 : 1 ≤ M.alpha) (hk : k < M.K) (hself : M.allowSelf = true) (hup : M.wMax = none) (h : SolvesFit M k (M.weights k)) :
    (stdEvents M k : ℝ) + (M.K * M.B * (M.alpha - 1) - M.beta * ∑ c ∈ range (M.K * M.B), M.weights k (c + 1)) ≤ stdPredicted M k (M.weights k) ∧
    ((∀ c < 1 + M.K * M.B, 1e-16 < M.weights k c) →
      stdPredicted M k (M.weights k) = (stdEvents M k : ℝ) + (M.K * M.B * (M.alpha - 1) - M.beta * ∑ c ∈ range (M.K * M.B), M.weights k (c + 1))) := by
  have hns : M.allowSelf = false → ∀ c, IsSelf M.B k c → |M.weights k c| ≤ 1e-8 := fun h => by rw [hself] at h; cases h
  have hw := box_pos h.1
  have hg := stdGradient_eq hM h1 hk hw hns
  have hkkt := (C115_certificate hM h1 hk h.1 hns hg).1 h
  simp only [hself, Bool.true_eq_false, false_and, if_false] at hkkt
  have e : ∑ c ∈ range (M.K * M.B), ((M.alpha - 1) - M.beta * M.weights k (c + 1)) = M.K * M.B * (M.alpha - 1) - M.beta * ∑ c ∈ range (M.K * M.B), M.weights k (c + 1) := by
    rw [sum_sub_distrib, sum_const, card_range, nsmul_eq_mul, mul_sum]
    push_cast
    ring
  have hs := lpGrad_scale (k := k) hM hw
  rw [e] at hs
  have hle : ∀ c < 1 + M.K * M.B, lpGrad M k (M.weights k) c ≤ 0 := fun c hc => (hkkt c hc).2 fun _ m hm => by rw [hup] at hm; cases hm
  constructor
  · have : ∑ c ∈ range (1 + M.K * M.B), lpGrad M k (M.weights k) c * M.weights k c ≤ 0 :=
      sum_nonpos fun c hc => mul_nonpos_of_nonpos_of_nonneg (hle c (mem_range.1 hc)) (hw c (mem_range.1 hc)).le
    linarith
  · intro hint
    have : ∑ c ∈ range (1 + M.K * M.B), lpGrad M k (M.weights k) c * M.weights k c = 0 :=
      sum_eq_zero fun c hc => by rw [le_antisymm (hle c (mem_range.1 hc)) ((hkkt c (mem_range.1 hc)).1 (hint c (mem_range.1 hc))), zero_mul]
    linarith

/-- specification: the entries `g` of a gradient at the point `x` of the box say that no single weight can be moved inside the box so that the log posterior increases to first order; the convergence criterion of a bounded optimiser -/
def Spec.NoUphillMove (M : StdModel) (x g : Vec ℝ) : Prop :=
  ∀ c < 1 + M.K * M.B, (1e-16 < x c → 0 ≤ g c) ∧ ((1 ≤ c → ∀ m ∈ M.wMax, x c < m) → g c ≤ 0)

/-- **C115 (converged optimiser).** With self connections allowed, `fit_with_bfgs` with an optimiser that merely stops at a point of the box at which the gradient the code reports admits no uphill move (the criterion at which L-BFGS-B declares convergence)
ends with the weights that maximise the joint log posterior over all weight matrices in the box. -/
theorem C115_converged_fit (hK : 0 < M.K) (hM : StdOk M) (h1 : 1 ≤ M.alpha) (hself : M.allowSelf = true) (opt : ℕ → StdModel → Vec ℝ)
    (hopt : ∀ k < M.K, ∀ w : Mat ℝ, InBfgsBox M (opt k { M with weights := w }) ∧
      ∀ g, stdGradient (StdModel.setRow { M with weights := w } k (opt k { M with weights := w })) k .none = .ok g → NoUphillMove M (opt k { M with weights := w }) g) :
    (fitBfgs opt M).data = M.data ∧ (∀ k < M.K, InBfgsBox M ((fitBfgs opt M).weights k)) ∧
      ∃ v', stdLogPost (fitBfgs opt M) .none .none = .ok v' ∧
        ∀ w : Mat ℝ, (∀ k < M.K, InBfgsBox M (w k)) → ∃ v, stdLogPost { M with weights := w } .none .none = .ok v ∧ v ≤ v' := by
  refine C71_bfgs_joint_maximum hK hM h1 opt fun k hk w => ?_
  obtain ⟨hb, hg⟩ := hopt k hk w
  refine ⟨hb, fun y hy => ?_⟩
  set x := opt k { M with weights := w } with hx
  have hrow : (StdModel.setRow { M with weights := w } k x).weights k = x := if_pos rfl
  have hM' : StdOk (StdModel.setRow { M with weights := w } k x) := hM
  have hbox : InBfgsBox (StdModel.setRow { M with weights := w } k x) ((StdModel.setRow { M with weights := w } k x).weights k) := by rw [hrow]; exact hb
  have hns : (StdModel.setRow { M with weights := w } k x).allowSelf = false → ∀ c, IsSelf (StdModel.setRow { M with weights := w } k x).B k c → |(StdModel.setRow { M with weights := w } k x).weights k c| ≤ 1e-8 :=
    fun h => by
      have h : M.allowSelf = false := h
      rw [hself] at h; cases h
  obtain ⟨g, e⟩ : ∃ g, stdGradient (StdModel.setRow { M with weights := w } k x) k .none = .ok g := ⟨_, stdGradient_eq hM' h1 hk (box_pos hbox) hns⟩
  have hsol := (C115_certificate hM' h1 hk hbox hns e).2 (by
    rw [hrow]
    exact hg _ e)
  obtain ⟨a, b, e1, e2, hab⟩ := hsol.2 y hy fun h => by
    have h : M.allowSelf = false := h
    rw [hself] at h; cases h
  rw [hrow] at e1
  have same : ∀ z, bfgsObjective (StdModel.setRow { M with weights := w } k x) k z = bfgsObjective { M with weights := w } k z := fun z => by
    unfold bfgsObjective
    have : StdModel.setRow (StdModel.setRow { M with weights := w } k x) k z = StdModel.setRow { M with weights := w } k z := by
      unfold StdModel.setRow
      congr 1
      funext i
      dsimp only
      split_ifs <;> rfl
    rw [this]
  rw [same] at e1 e2
  exact ⟨a, b, e1, e2, hab⟩

/-! ### the hypotheses are met -/

/-- the hypotheses of `C115_converged_fit` are met: one process, no data, the optimiser that returns the lower bounds; the reported gradient is 0 for the background and -1 for the weight, at whose lower bound it is -/
example : ∃ opt : ℕ → StdModel → Vec ℝ, 0 < twoModel.K ∧ StdOk twoModel ∧ 1 ≤ twoModel.alpha ∧ twoModel.allowSelf = true ∧ ∀ k < twoModel.K, ∀ w : Mat ℝ, InBfgsBox twoModel (opt k { twoModel with weights := w }) ∧
      ∀ g, stdGradient (StdModel.setRow { twoModel with weights := w } k (opt k { twoModel with weights := w })) k .none = .ok g → NoUphillMove twoModel (opt k { twoModel with weights := w }) g := by
  have hM : StdOk twoModel := by intro D hD; simp [twoModel] at hD
  have hbox : InBfgsBox twoModel fun _ => 1e-16 := by
    intro c _
    exact ⟨le_rfl, fun _ m hm => by simp [twoModel] at hm⟩
  refine ⟨fun _ _ _ => 1e-16, by decide, hM, by simp [twoModel], rfl, fun k hk w => ⟨hbox, fun g hg c hc => ⟨fun h => absurd h (lt_irrefl _), fun _ => ?_⟩⟩⟩
  have hrow : (StdModel.setRow { twoModel with weights := w } k fun _ => 1e-16).weights k = fun _ => 1e-16 := if_pos rfl
  have hM' : StdOk (StdModel.setRow { twoModel with weights := w } k fun _ => 1e-16) := hM
  rw [stdGradient_eq hM' (by simp [StdModel.setRow, twoModel]) hk (by rw [hrow]; exact box_pos hbox) (fun h => by cases h)] at hg
  rw [← Except.ok.inj hg, hrow]
  simp [lpGrad, StdModel.setRow, twoModel]
  split_ifs <;> norm_num

/-- `statDemo true` without an upper bound on the weights -/
noncomputable def fitDemo : StdModel := { statDemo true with wMax := none }

theorem fitDemo_solves : SolvesFit fitDemo 0 (fitDemo.weights 0) := by
  obtain ⟨g, hg, h0⟩ := statDemo_gradient true (k := 0) (by decide)
  have hg' : stdGradient fitDemo 0 .none = .ok g := hg
  have hw : ∀ c, fitDemo.weights 0 c = if c = 0 then 1 / 2 else 1 / 4 := fun c => by simp [fitDemo, statDemo]
  refine (C115_certificate (M := fitDemo) (statDemo_ok true) (by norm_num [fitDemo, statDemo, logDemo]) (by show 0 < 2; decide) ?_ (fun h => by cases h) hg').2 fun c hc => ?_
  · intro c _
    rw [hw]
    exact ⟨by split_ifs <;> norm_num, fun _ m hm => by cases hm⟩
  · have := h0 c hc
    exact ⟨fun _ => this.ge, fun _ => this.le⟩

/-- the hypotheses of `C115_tolerance` are met with tolerance `1/10` -/
example {y : Vec ℝ} (hy : InBfgsBox fitDemo y) : ∃ a b, bfgsObjective fitDemo 0 (fitDemo.weights 0) = .ok a ∧ bfgsObjective fitDemo 0 y = .ok b ∧ a ≤ b + 1 / 10 * ∑ c ∈ range (1 + fitDemo.K * fitDemo.B), |y c - fitDemo.weights 0 c| := by
  obtain ⟨g, hg, h0⟩ := statDemo_gradient true (k := 0) (by decide)
  have hg' : stdGradient fitDemo 0 .none = .ok g := hg
  refine C115_tolerance (M := fitDemo) (statDemo_ok true) (by norm_num [fitDemo, statDemo, logDemo]) (by show 0 < 2; decide) fitDemo_solves.1 (fun h => by cases h) hg' (by norm_num) (fun c hc => ?_) hy fun h => by cases h
  have : g c = 0 := h0 c hc
  rw [this]
  exact ⟨fun _ => by norm_num, fun _ => by norm_num⟩

/-- the hypotheses of `C115_predicted_events` are met, with no weight at its lower bound: one event observed, and the rates `1/2` and `1/2 + 2/4` of the two bins predict `3/2 = 1 + (2 (2 - 1) - 3 (1/4 + 1/4))` -/
example : stdPredicted fitDemo 0 (fitDemo.weights 0) = 3 / 2 ∧ stdEvents fitDemo 0 = 1 := by
  have hw : ∀ c, fitDemo.weights 0 c = if c = 0 then 1 / 2 else 1 / 4 := fun c => by simp [fitDemo, statDemo]
  have he : stdEvents fitDemo 0 = 1 := rfl
  refine ⟨?_, he⟩
  rw [(C115_predicted_events (M := fitDemo) (statDemo_ok true) (by norm_num [fitDemo, statDemo, logDemo]) (by show 0 < 2; decide) rfl rfl fitDemo_solves).2 fun c _ => ?_, he]
  · have : ∑ c ∈ range (fitDemo.K * fitDemo.B), fitDemo.weights 0 (c + 1) = 1 / 2 := by
      show ∑ c ∈ range (2 * 1), _ = _
      simp only [hw]
      norm_num [sum_range_succ]
    rw [this]
    norm_num [fitDemo, statDemo, logDemo]
  · rw [hw]; split_ifs <;> norm_num

end PyHawkes
