import Verif.Spec.Branching
import Verif.Props.CTGenerate
import Verif.Props.CTGibbs
/-!
# C80: the continuous-time simulator is the branching process of the model; C33: the normal-gamma draw
-/
set_option linter.unusedSectionVars false
set_option linter.unusedVariables false

namespace PyHawkes
open Finset Spec MeasureTheory ProbabilityTheory

/-- the simulation state grew by litters with keys `pend` and the litters of all events born on the way -/
def Grew {σ : Type} (P : CTParams) (T : ℝ) (pend : List (Option (ℝ × ℕ) × ℕ)) (st st' : List GenEvent × σ × List Draw) : Prop :=
  ∃ ls : List Litter, st'.1 = st.1 ++ ls.flatMap (Litter.events P T) ∧ st'.2.2 = st.2.2 ++ ls.flatMap (Litter.draws P T) ∧
    (ls.map fun b => (b.parent, b.proc)).Perm (pend ++ (ls.flatMap (Litter.events P T)).flatMap fun e => litterKeys P (e.time, e.proc))

theorem Grew.refl {σ : Type} (P : CTParams) (T : ℝ) (st : List GenEvent × σ × List Draw) : Grew P T [] st st := ⟨[], by simp⟩

theorem Grew.trans {σ : Type} {P : CTParams} {T : ℝ} {p q : List (Option (ℝ × ℕ) × ℕ)} {a b c : List GenEvent × σ × List Draw} (h1 : Grew P T p a b) (h2 : Grew P T q b c) :
    Grew P T (p ++ q) a c := by
  obtain ⟨l1, e1, d1, k1⟩ := h1
  obtain ⟨l2, e2, d2, k2⟩ := h2
  refine ⟨l1 ++ l2, by rw [e2, e1, List.flatMap_append, List.append_assoc], by rw [d2, d1, List.flatMap_append, List.append_assoc], ?_⟩
  rw [List.map_append, List.flatMap_append, List.flatMap_append]
  refine (k1.append k2).trans ?_
  rw [List.append_assoc, List.append_assoc]
  refine List.Perm.append_left _ ?_
  rw [← List.append_assoc, ← List.append_assoc]
  exact List.Perm.append_right _ List.perm_append_comm

theorem Grew.loop {α σ : Type} {P : CTParams} {T : ℝ} (f : α → List GenEvent × σ × List Draw → Except PyErr (List GenEvent × σ × List Draw))
    (p : α → List (Option (ℝ × ℕ) × ℕ)) (xs : List α) (h : ∀ x ∈ xs, ∀ st st', f x st = .ok st' → Grew P T (p x) st st') (st st')
    (hr : forListE xs f st = .ok st') : Grew P T (xs.flatMap p) st st' := by
  induction xs generalizing st with
  | nil =>
    have : st = st' := Except.ok.inj hr
    rw [← this]; exact Grew.refl P T st
  | cons x xs ih =>
    unfold forListE at hr
    cases hx : f x st with
    | error e => rw [hx] at hr; cases hr
    | ok s1 =>
      rw [hx] at hr
      exact (h x (by simp) st s1 hx).trans (ih (fun y hy => h y (by simp [hy])) s1 hr)

/-- a first litter, then everything its members start -/
theorem Grew.litter {σ : Type} {P : CTParams} {T : ℝ} (b : Litter) (evs : List GenEvent) (s s' : σ) (ds : List Draw) (st' : List GenEvent × σ × List Draw)
    (h : Grew P T ((b.events P T).flatMap fun e => litterKeys P (e.time, e.proc)) (evs ++ b.events P T, s', ds ++ b.draws P T) st') :
    Grew P T [(b.parent, b.proc)] (evs, s, ds) st' := by
  obtain ⟨ls, e, d, k⟩ := h
  refine ⟨b :: ls, by simp [e], by simp [d], ?_⟩
  simp only [List.map_cons, List.flatMap_cons, List.flatMap_append, List.singleton_append]
  exact k.cons _

theorem drawN_recorded_randn {σ : Type} (rng : Rng σ) (n : ℕ) (s : σ × List Draw) :
    (drawN (recorded rng).randn n s).1.length = n ∧ (drawN (recorded rng).randn n s).2.2 = s.2 ++ (drawN (recorded rng).randn n s).1.map .normal := by
  induction n generalizing s with
  | zero => simp [drawN]
  | succ n ih =>
    simp only [drawN, List.length_cons, List.map_cons]
    refine ⟨by rw [(ih _).1], ?_⟩
    rw [(ih _).2]
    simp [recorded]

theorem drawN_recorded_rand {σ : Type} (rng : Rng σ) (n : ℕ) (s : σ × List Draw) :
    (drawN (recorded rng).rand n s).1.length = n ∧ (drawN (recorded rng).rand n s).2.2 = s.2 ++ (drawN (recorded rng).rand n s).1.map .uniform := by
  induction n generalizing s with
  | zero => simp [drawN]
  | succ n ih =>
    simp only [drawN, List.length_cons, List.map_cons]
    refine ⟨by rw [(ih _).1], ?_⟩
    rw [(ih _).2]
    simp [recorded]

theorem lagOf_eq (P : CTParams) (c c' : ℕ) (z : ℝ) : lagOf P c c' z = P.dtMax * pyLogistic (P.mu c c' + Real.sqrt (1 / P.tau c c') * z) 1 := by
  unfold lagOf pyLogistic
  rw [Real.sqrt_div zero_le_one, Real.sqrt_one, one_div_mul_eq_div, mul_one, mul_one_div]

theorem childTimes_recorded {σ : Type} (P : CTParams) (T : ℝ) (rng : Rng σ) (s : ℝ) (c c' : ℕ) (st : σ × List Draw) :
    ∃ b : Litter, b.parent = some (s, c) ∧ b.proc = c' ∧
      ((childTimes P T (recorded rng) s c c' st).1.map fun t => (⟨t, c', some (s, c)⟩ : GenEvent)) = b.events P T ∧
      (childTimes P T (recorded rng) s c c' st).2.2 = st.2 ++ b.draws P T := by
  classical
  refine ⟨⟨some (s, c), c', (drawN (recorded rng).randn ((recorded rng).poisson (P.W c c') st).1 ((recorded rng).poisson (P.W c c') st).2).1⟩, rfl, rfl, ?_, ?_⟩
  · unfold childTimes Litter.events
    simp only [lagOf_eq]
  · unfold childTimes Litter.draws
    dsimp only
    obtain ⟨h1, h2⟩ := drawN_recorded_randn rng ((recorded rng).poisson (P.W c c') st).1 ((recorded rng).poisson (P.W c c') st).2
    rw [h2, h1]
    simp [recorded]

theorem genHelper_grew {σ : Type} (P : CTParams) (T : ℝ) (rng : Rng σ) (fuel : ℕ) (s : ℝ) (c : ℕ) (st st' : List GenEvent × σ × List Draw)
    (h : genHelper P T (recorded rng) fuel s c st = .ok st') : Grew P T (litterKeys P (s, c)) st st' := by
  classical
  induction fuel generalizing s c st st' with
  | zero => cases h
  | succ fuel ih =>
    unfold genHelper at h
    have hl := Grew.loop (P := P) (T := T) _ (fun c' => if P.A c c' ≠ 0 ∧ P.W c c' ≠ 0 then [((some (s, c) : Option (ℝ × ℕ)), c')] else []) _ (by
      intro c' hc' a a' ha
      dsimp only at ha ⊢
      by_cases h1 : P.W c c' = 0 ∨ P.A c c' = 0
      · rw [if_pos h1] at ha
        rw [if_neg (by tauto), ← Except.ok.inj ha]
        exact Grew.refl P T a
      · rw [if_neg h1] at ha
        by_cases h2 : P.W c c' < 0
        · rw [if_pos h2] at ha; cases ha
        · rw [if_neg h2] at ha
          rw [if_pos (by tauto)]
          obtain ⟨b, hb1, hb2, hb3, hb4⟩ := childTimes_recorded P T rng s c c' a.2
          have hk := Grew.loop (P := P) (T := T) _ (fun t => litterKeys P (t, c')) _ (fun t ht x x' hx => ih t c' x x' hx) _ _ ha
          have e : (childTimes P T (recorded rng) s c c' a.2).1.flatMap (fun t => litterKeys P (t, c')) = (b.events P T).flatMap fun e => litterKeys P (e.time, e.proc) := by
            rw [← hb3, List.flatMap_map]
          rw [e, hb3] at hk
          have := Grew.litter b a.1 a.2.1 (childTimes P T (recorded rng) s c c' a.2).2.1 a.2.2 a' (by rw [← hb4]; exact hk)
          rw [hb1, hb2] at this
          exact this) st st' h
    have e : (List.range P.K).flatMap (fun c' => if P.A c c' ≠ 0 ∧ P.W c c' ≠ 0 then [((some (s, c) : Option (ℝ × ℕ)), c')] else []) = litterKeys P (s, c) := by
      unfold litterKeys
      induction List.range P.K with
      | nil => rfl
      | cons x xs ih2 =>
        rw [List.flatMap_cons, ih2, List.filter_cons]
        by_cases hx : P.A c x ≠ 0 ∧ P.W c x ≠ 0
        · rw [if_pos hx, if_pos (by simpa using hx)]; rfl
        · rw [if_neg hx, if_neg (by simpa using hx)]; rfl
    rw [← e]
    exact hl

/-- **C80 (branching structure).** Whatever the generator answers: if the simulation finishes, then the draws it made and the events it produced are exactly those of the Hawkes branching process of the
model – one Poisson(`lambda0[k] T`) litter of background events at uniform times per process, and for every event of the result and every edge from its process exactly one Poisson(`W`) litter of
children at logistic-normal lags – and nothing else is drawn or produced. -/
theorem C80_branching {σ : Type} (P : CTParams) (T : ℝ) (maxRound : ℕ) (rng : Rng σ) (st : σ) (r : List GenEvent × σ × List Draw)
    (h : genAll P T maxRound (recorded rng) (st, []) = .ok r) : IsBranching P T r.2.2 r.1 := by
  unfold genAll at h
  have hl := Grew.loop (P := P) (T := T) _ (fun k => [((none : Option (ℝ × ℕ)), k)]) _ (by
    intro k hk a a' ha
    dsimp only at ha ⊢
    by_cases h1 : P.lam0 k * T < 0
    · rw [if_pos h1] at ha; cases ha
    · rw [if_neg h1] at ha
      have hk := Grew.loop (P := P) (T := T) _ (fun t => litterKeys P (t, k)) _ (fun t ht x x' hx => genHelper_grew P T rng maxRound t k x x' hx) _ _ ha
      obtain ⟨d1, d2⟩ := drawN_recorded_rand rng ((recorded rng).poisson (P.lam0 k * T) a.2).1 ((recorded rng).poisson (P.lam0 k * T) a.2).2
      refine Grew.litter ⟨none, k, (drawN (recorded rng).rand ((recorded rng).poisson (P.lam0 k * T) a.2).1 ((recorded rng).poisson (P.lam0 k * T) a.2).2).1⟩ a.1 a.2.1
        (drawN (recorded rng).rand ((recorded rng).poisson (P.lam0 k * T) a.2).1 ((recorded rng).poisson (P.lam0 k * T) a.2).2).2.1 a.2.2 a' ?_
      have e1 : ∀ xs : List ℝ, (Litter.events P T ⟨none, k, xs⟩).flatMap (fun e => litterKeys P (e.time, e.proc)) = (xs.map fun x => x * T).flatMap fun t => litterKeys P (t, k) := by
        intro xs; simp only [Litter.events, List.flatMap_map]
      have e2 : ∀ xs : List ℝ, Litter.events P T ⟨none, k, xs⟩ = (xs.map fun x => x * T).map fun t => ⟨t, k, none⟩ := by
        intro xs; simp only [Litter.events, List.map_map]; rfl
      rw [e1, e2]
      have e3 : a.2.2 ++ Litter.draws P T ⟨none, k, (drawN (recorded rng).rand ((recorded rng).poisson (P.lam0 k * T) a.2).1 ((recorded rng).poisson (P.lam0 k * T) a.2).2).1⟩
          = (drawN (recorded rng).rand ((recorded rng).poisson (P.lam0 k * T) a.2).1 ((recorded rng).poisson (P.lam0 k * T) a.2).2).2.2 := by
        unfold Litter.draws
        dsimp only
        rw [d2, d1]
        simp [recorded]
      rw [e3]
      exact hk) _ _ h
  obtain ⟨ls, e, d, k⟩ := hl
  refine ⟨ls, by rw [d]; rfl, by rw [e]; rfl, ?_⟩
  have : r.1 = ls.flatMap (Litter.events P T) := by rw [e]; rfl
  rw [this]
  have e4 : ∀ l : List ℕ, l.flatMap (fun k => [((none : Option (ℝ × ℕ)), k)]) = l.map fun k => (none, k) := fun l => by
    induction l with
    | nil => rfl
    | cons x xs ih => rw [List.flatMap_cons, ih]; rfl
  rw [e4] at k
  exact k

/-! ### Recording changes nothing -/

theorem forListE_sim {α σ τ : Type} (π : σ → τ) (xs : List α) (f : α → σ → Except PyErr σ) (g : α → τ → Except PyErr τ)
    (h : ∀ x s, (f x s).map π = g x (π s)) (s : σ) : (forListE xs f s).map π = forListE xs g (π s) := by
  induction xs generalizing s with
  | nil => rfl
  | cons x xs ih =>
    unfold forListE
    rw [← h x s]
    cases f x s with
    | error e => rfl
    | ok s' => exact ih s'

/-- forget the record -/
def unrecord {σ : Type} (st : List GenEvent × σ × List Draw) : List GenEvent × σ := (st.1, st.2.1)

theorem drawN_sim {σ τ : Type} (π : σ → τ) (f : σ → ℝ × σ) (g : τ → ℝ × τ) (h : ∀ s, (f s).1 = (g (π s)).1 ∧ π (f s).2 = (g (π s)).2) (n : ℕ) (s : σ) :
    (drawN f n s).1 = (drawN g n (π s)).1 ∧ π (drawN f n s).2 = (drawN g n (π s)).2 := by
  induction n generalizing s with
  | zero => exact ⟨rfl, rfl⟩
  | succ n ih =>
    obtain ⟨a, b⟩ := h s
    obtain ⟨c, d⟩ := ih (f s).2
    simp only [drawN]
    rw [a, c, d, b]
    exact ⟨rfl, rfl⟩

theorem childTimes_sim {σ : Type} (P : CTParams) (T : ℝ) (rng : Rng σ) (s : ℝ) (c c' : ℕ) (st : σ × List Draw) :
    (childTimes P T (recorded rng) s c c' st).1 = (childTimes P T rng s c c' st.1).1 ∧ (childTimes P T (recorded rng) s c c' st).2.1 = (childTimes P T rng s c c' st.1).2 := by
  have := drawN_sim (fun s : σ × List Draw => s.1) (recorded rng).randn rng.randn (fun s => ⟨rfl, rfl⟩) (rng.poisson (P.W c c') st.1).1
    ((rng.poisson (P.W c c') st.1).2, st.2 ++ [.poisson (P.W c c') (rng.poisson (P.W c c') st.1).1])
  obtain ⟨a, b⟩ := this
  constructor
  · simp only [childTimes]
    dsimp only [recorded] at a ⊢
    rw [a]
  · exact b

theorem genHelper_sim {σ : Type} (P : CTParams) (T : ℝ) (rng : Rng σ) (fuel : ℕ) (s : ℝ) (c : ℕ) (st : List GenEvent × σ × List Draw) :
    (genHelper P T (recorded rng) fuel s c st).map unrecord = genHelper P T rng fuel s c (unrecord st) := by
  induction fuel generalizing s c st with
  | zero => rfl
  | succ fuel ih =>
    unfold genHelper
    refine forListE_sim unrecord _ _ _ (fun c' st => ?_) st
    dsimp only
    split_ifs
    · rfl
    · rfl
    · obtain ⟨a, b⟩ := childTimes_sim P T rng s c c' st.2
      have : (childTimes P T rng s c c' (unrecord st).2) = ((childTimes P T (recorded rng) s c c' st.2).1, (childTimes P T (recorded rng) s c c' st.2).2.1) := by
        rw [a, b]; rfl
      rw [this]
      exact forListE_sim unrecord _ _ _ (fun t st => ih t c' st) _

/-- **C80 (the record is harmless).** Recording the draws does not change the simulation: the events are those produced with the plain generator, and so is the failure, if any. -/
theorem C80_record_transparent {σ : Type} (P : CTParams) (T : ℝ) (maxRound : ℕ) (rng : Rng σ) (st : σ) :
    ((genAll P T maxRound (recorded rng) (st, [])).map fun r => (r.1, r.2.1)) = genAll P T maxRound rng st := by
  unfold genAll
  refine forListE_sim (fun r : List GenEvent × σ × List Draw => (r.1, r.2.1)) _ _ _ (fun k st => ?_) _
  dsimp only
  split_ifs
  · rfl
  · obtain ⟨a, b⟩ := drawN_sim (fun s : σ × List Draw => s.1) (recorded rng).rand rng.rand (fun s => ⟨rfl, rfl⟩) (rng.poisson (P.lam0 k * T) st.2.1).1
      ((rng.poisson (P.lam0 k * T) st.2.1).2, st.2.2 ++ [.poisson (P.lam0 k * T) (rng.poisson (P.lam0 k * T) st.2.1).1])
    dsimp only at a b
    have h := forListE_sim unrecord (((drawN (recorded rng).rand ((recorded rng).poisson (P.lam0 k * T) st.2).1 ((recorded rng).poisson (P.lam0 k * T) st.2).2).1).map fun x => x * T)
      (fun t st => genHelper P T (recorded rng) maxRound t k st) (fun t st => genHelper P T rng maxRound t k st) (fun t st => genHelper_sim P T rng maxRound t k st)
      (st.1 ++ (((drawN (recorded rng).rand ((recorded rng).poisson (P.lam0 k * T) st.2).1 ((recorded rng).poisson (P.lam0 k * T) st.2).2).1).map fun x => x * T).map fun t => (⟨t, k, none⟩ : GenEvent),
       (drawN (recorded rng).rand ((recorded rng).poisson (P.lam0 k * T) st.2).1 ((recorded rng).poisson (P.lam0 k * T) st.2).2).2)
    refine h.trans ?_
    unfold unrecord
    dsimp only
    have a' : (drawN (recorded rng).rand ((recorded rng).poisson (P.lam0 k * T) st.2).1 ((recorded rng).poisson (P.lam0 k * T) st.2).2).1
      = (drawN rng.rand (rng.poisson (P.lam0 k * T) st.2.1).1 (rng.poisson (P.lam0 k * T) st.2.1).2).1 := a
    have b' : (drawN (recorded rng).rand ((recorded rng).poisson (P.lam0 k * T) st.2).1 ((recorded rng).poisson (P.lam0 k * T) st.2).2).2.1
      = (drawN rng.rand (rng.poisson (P.lam0 k * T) st.2.1).1 (rng.poisson (P.lam0 k * T) st.2.1).2).2 := b
    rw [a', b']

/-! ### The laws of the lags -/

/-- **C80 (lags).** A standard normal variate pushed through the simulator's lag formula has the density of the model's impulse response on `(0, dt_max)`. -/
theorem C80_lag_law (P : CTParams) (c c' : ℕ) (hd : 0 < P.dtMax) (ht : 0 < P.tau c c') :
    (gaussianReal 0 1).map (lagOf P c c') = (volume.restrict (Set.Ioo 0 P.dtMax)).withDensity fun s => ENNReal.ofReal (pyImpulse (P.mu c c') (P.tau c c') P.dtMax s) := by
  have hs : 0 < Real.sqrt (1 / P.tau c c') := Real.sqrt_pos.2 (by positivity)
  have hmeas : Measurable (lagOf P c c') := by unfold lagOf; fun_prop
  have hcomp : lagOf P c c' = (fun x => P.dtMax * pyLogistic x 1) ∘ (fun x => P.mu c c' + x) ∘ (fun z => Real.sqrt (1 / P.tau c c') * z) := by
    funext z; rw [lagOf_eq]; rfl
  have hm2 : Measurable (fun x => P.dtMax * pyLogistic x 1) := by unfold pyLogistic; fun_prop
  rw [hcomp, ← Measure.map_map hm2 (by fun_prop), ← Measure.map_map (by fun_prop) (by fun_prop), gaussianReal_map_const_mul, gaussianReal_map_const_add]
  have hv : (NNReal.mk (Real.sqrt (1 / P.tau c c') ^ 2) (sq_nonneg _) * 1 : NNReal) = (1 / P.tau c c').toNNReal := by
    rw [mul_one]
    ext
    rw [Real.coe_toNNReal _ (by positivity)]
    exact Real.sq_sqrt (by positivity)
  have hm : Real.sqrt (1 / P.tau c c') * 0 + P.mu c c' = P.mu c c' := by ring
  rw [hv, hm]
  ext B hB
  rw [Measure.map_apply hm2 hB, gaussianReal_apply _ (by simpa using ht), withDensity_apply _ hB, Measure.restrict_restrict hB]
  have himg : (fun x => P.dtMax * pyLogistic x 1) ⁻¹' B = (fun s => pyLogit (s / P.dtMax) 1) '' (B ∩ Set.Ioo 0 P.dtMax) := by
    ext x
    simp only [Set.mem_preimage, Set.mem_image, Set.mem_inter_iff, Set.mem_Ioo]
    have hr := C58_logistic_range 1 one_pos x
    constructor
    · intro hx
      refine ⟨_, ⟨hx, mul_pos hd hr.1, by nlinarith [hr.2]⟩, ?_⟩
      rw [mul_div_cancel_left₀ _ hd.ne', C58_logit_logistic 1 one_pos]
    · rintro ⟨s, ⟨hs1, hs2, hs3⟩, rfl⟩
      rw [C58_logistic_logit 1 one_pos _ (div_pos hs2 hd) ((div_lt_one hd).2 hs3), mul_div_cancel₀ _ hd.ne']
      exact hs1
  rw [himg, lintegral_image_eq_lintegral_abs_deriv_mul (f' := fun s => P.dtMax / (s * (P.dtMax - s))) (hB.inter measurableSet_Ioo)
    (fun s hs => (logit_hasDeriv P.dtMax s hs.2.1 hs.2.2).hasDerivWithinAt) ((logit_injOn P.dtMax).mono Set.inter_subset_right)]
  refine setLIntegral_congr_fun (hB.inter measurableSet_Ioo) fun s hs => ?_
  rw [pyImpulse_eq _ _ _ _ ht hs.2.1 hs.2.2, ENNReal.ofReal_mul (abs_nonneg _), gaussianPDF]

/-- **C80 (background times).** A uniform variate on [0,1) times `T` is uniform on [0,T). -/
theorem C80_background_law (T : ℝ) (hT : 0 < T) :
    (volume.restrict (Set.Ico (0:ℝ) 1)).map (fun u => u * T) = ENNReal.ofReal (1 / T) • volume.restrict (Set.Ico 0 T) := by
  have hpre : (fun u : ℝ => u * T) ⁻¹' Set.Ico 0 T = Set.Ico 0 1 := by
    ext u
    simp only [Set.mem_preimage, Set.mem_Ico]
    constructor
    · rintro ⟨a, b⟩
      exact ⟨by by_contra h; nlinarith [not_le.1 h], by by_contra h; nlinarith [not_lt.1 h]⟩
    · rintro ⟨a, b⟩
      exact ⟨by positivity, by nlinarith⟩
  rw [← hpre, ← Measure.restrict_map (by fun_prop) measurableSet_Ico, Real.map_volume_mul_right hT.ne', Measure.restrict_smul, abs_of_pos (inv_pos.2 hT), one_div]

/-- non-vacuity: the demo simulation finishes, with a litter of one background event, one of one child, and one empty one -/
example : ∃ r, genAll demoParams 10 5 (recorded demoRng) (0, []) = .ok r ∧ r.1.map GenEvent.parent = [none, some (5, 0)] := by
  have hl : pyLogistic 0 1 = 1/2 := by unfold pyLogistic; norm_num
  refine ⟨([⟨5, 0, none⟩, ⟨5 + 1/2, 0, some (5, 0)⟩], 3, [.poisson 10 1, .uniform (1/2), .poisson 1 1, .normal 0, .poisson 1 0]), ?_, rfl⟩
  norm_num [genAll, demoParams, demoRng, recorded, List.range_succ, forListE, genHelper, childTimes, drawN, List.filter, hl]

/-! ### The normal-gamma draw -/

/-- **C33 (draw).** `sample_nig` asks numpy for a gamma precision and, with that precision, for a normal mean whose joint density is the normal-gamma density of the parameters handed in. -/
theorem C33_draw (a : NigArgs) (ha : NigOk a) (gam : GammaArgs → ℝ) (normal : ℝ → ℝ → ℝ) (hpos : ∀ g, 0 < gam g) :
    ∃ shape scale sd : ℝ, 0 < sd ∧ sampleNig gam normal a = (normal a.mu sd, gam ⟨shape, scale⟩) ∧
      ∀ m, npGammaPdf shape scale (gam ⟨shape, scale⟩) * npNormalPdf a.mu sd m = nigPdf a m (gam ⟨shape, scale⟩) := by
  refine ⟨a.alpha, 1 / a.beta, Real.sqrt (1 / (a.lmbda * gam ⟨a.alpha, 1 / a.beta⟩)), ?_, rfl, fun m => ?_⟩
  · have := hpos ⟨a.alpha, 1 / a.beta⟩
    have := ha.1
    exact Real.sqrt_pos.2 (by positivity)
  · have := hpos ⟨a.alpha, 1 / a.beta⟩
    have h1 := ha.1
    unfold npNormalPdf nigPdf
    rw [Real.sq_sqrt (by positivity)]
    congr 1
    unfold npGammaPdf
    simp

end PyHawkes
