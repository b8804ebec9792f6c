import Verif.Spec.CTGenerate
import Verif.Props.CTImpulse
/-!
# C30: simulated continuous-time data
-/
set_option linter.unusedSectionVars false

namespace PyHawkes
open Finset Spec

/-- loop rule for a loop that either stops with an assertion error or keeps an invariant -/
theorem forListE_assert {α σ : Type*} (I : σ → Prop) (f : α → σ → Except PyErr σ) (xs : List α) (s : σ) (h0 : I s)
    (hs : ∀ x ∈ xs, ∀ s, I s → f x s = .error .assertion ∨ ∃ s', f x s = .ok s' ∧ I s') :
    forListE xs f s = .error .assertion ∨ ∃ s', forListE xs f s = .ok s' ∧ I s' := by
  induction xs generalizing s with
  | nil => exact Or.inr ⟨s, rfl, h0⟩
  | cons x xs ih =>
    unfold forListE
    rcases hs x (by simp) s h0 with h | ⟨s', h, hi⟩
    · left; rw [h]
    · rw [h]; exact ih s' hi fun y hy => hs y (by simp [hy])

theorem drawN_mem {σ : Type} (f : σ → ℝ × σ) (Q : ℝ → Prop) (hf : ∀ s, Q (f s).1) (n : ℕ) (s : σ) : ∀ x ∈ (drawN f n s).1, Q x := by
  induction n generalizing s with
  | zero => intro x hx; cases hx
  | succ n ih =>
    intro x hx
    simp only [drawN, List.mem_cons] at hx
    rcases hx with rfl | hx
    · exact hf s
    · exact ih _ x hx

theorem childTimes_mem {σ : Type} (P : CTParams) (hd : 0 < P.dtMax) (T : ℝ) (rng : Rng σ) (s : ℝ) (c c' : ℕ) (st : σ) :
    ∀ t ∈ (childTimes P T rng s c c' st).1, 0 < t - s ∧ t - s < P.dtMax ∧ t < T := by
  intro t ht
  unfold childTimes at ht
  simp only [List.mem_filter, List.mem_map, decide_eq_true_eq] at ht
  obtain ⟨⟨z, -, rfl⟩, h⟩ := ht
  have hl := C58_logistic_range 1 one_pos (P.mu c c' + Real.sqrt (1 / P.tau c c') * z)
  refine ⟨?_, ?_, h⟩
  · have := mul_pos hd hl.1
    linarith
  · have := mul_lt_mul_of_pos_left hl.2 hd
    linarith

/-- adding the children of an event that is in the list keeps the list valid -/
theorem valid_append (P : CTParams) (T : ℝ) (evs : List GenEvent) (h : ValidCascade P T evs) (s : ℝ) (c c' : ℕ) (hc' : c' < P.K) (ts : List ℝ)
    (hpar : ∃ e ∈ evs, e.time = s ∧ e.proc = c) (hts : ∀ t ∈ ts, 0 < t - s ∧ t - s < P.dtMax ∧ t < T) (hW : P.W c c' ≠ 0) (hA : P.A c c' ≠ 0) :
    ValidCascade P T (evs ++ ts.map fun t => ⟨t, c', some (s, c)⟩) := by
  intro e he
  rcases List.mem_append.1 he with he | he
  · obtain ⟨h1, h2, h3, h4⟩ := h e he
    refine ⟨h1, h2, h3, fun s c hp => ?_⟩
    obtain ⟨⟨e', he', h5⟩, h6⟩ := h4 s c hp
    exact ⟨⟨e', List.mem_append_left _ he', h5⟩, h6⟩
  · obtain ⟨t, ht, rfl⟩ := List.mem_map.1 he
    obtain ⟨a, b, d⟩ := hts t ht
    obtain ⟨e', he', h1, h2⟩ := hpar
    have hs := (h e' he').1
    refine ⟨?_, d, hc', fun s2 c2 hp => ?_⟩
    · change 0 ≤ t
      rw [h1] at hs
      linarith
    · simp only [Option.some.injEq, Prod.mk.injEq] at hp
      obtain ⟨rfl, rfl⟩ := hp
      exact ⟨⟨e', List.mem_append_left _ he', h1, h2⟩, a, b, hW, hA⟩

theorem genHelper_spec {σ : Type} (P : CTParams) (hd : 0 < P.dtMax) (hW : ∀ i < P.K, ∀ j < P.K, 0 ≤ P.W i j) (T : ℝ) (rng : Rng σ) (fuel : ℕ) (s : ℝ) (c : ℕ)
    (st : List GenEvent × σ) (hv : ValidCascade P T st.1) (hpar : ∃ e ∈ st.1, e.time = s ∧ e.proc = c) :
    genHelper P T rng fuel s c st = .error .assertion ∨
      ∃ st', genHelper P T rng fuel s c st = .ok st' ∧ ValidCascade P T st'.1 ∧ st.1 ⊆ st'.1 := by
  induction fuel generalizing s c st with
  | zero => left; rfl
  | succ fuel ih =>
    unfold genHelper
    have := forListE_assert (fun st' : List GenEvent × σ => ValidCascade P T st'.1 ∧ st.1 ⊆ st'.1) (fun c' st =>
      if P.W c c' = 0 ∨ P.A c c' = 0 then .ok st
      else if P.W c c' < 0 then .error .value
      else
        let ch := childTimes P T rng s c c' st.2
        let out := st.1 ++ ch.1.map fun t => ⟨t, c', some (s, c)⟩
        forListE ch.1 (fun t st => genHelper P T rng fuel t c' st) (out, ch.2)) (List.range P.K) st ⟨hv, List.Subset.refl _⟩ (by
      intro c' hc' st1 hst1
      have hc'' := List.mem_range.1 hc'
      dsimp only
      split_ifs with h1 h2
      · exact Or.inr ⟨st1, rfl, hst1⟩
      · obtain ⟨e, he, -, he2⟩ := hpar
        exact absurd h2 (not_lt.2 (hW c (he2 ▸ (hv e he).2.2.1) c' hc''))
      · have hne := not_or.1 h1
        obtain ⟨e, he, he1, he2⟩ := hpar
        have hv1 := valid_append P T st1.1 hst1.1 s c c' hc'' (childTimes P T rng s c c' st1.2).1 ⟨e, hst1.2 he, he1, he2⟩
          (childTimes_mem P hd T rng s c c' st1.2) hne.1 hne.2
        generalize hch : childTimes P T rng s c c' st1.2 = ch at hv1
        have hsub : st1.1 ⊆ st1.1 ++ ch.1.map fun t => (⟨t, c', some (s, c)⟩ : GenEvent) := List.subset_append_left _ _
        have := forListE_assert (fun st' : List GenEvent × σ => ValidCascade P T st'.1 ∧ (st1.1 ++ ch.1.map fun t => (⟨t, c', some (s, c)⟩ : GenEvent)) ⊆ st'.1)
          (fun t st => genHelper P T rng fuel t c' st) ch.1 (st1.1 ++ ch.1.map fun t => (⟨t, c', some (s, c)⟩ : GenEvent), ch.2) ⟨hv1, List.Subset.refl _⟩ (by
            intro t ht st2 hst2
            rcases ih t c' st2 hst2.1 ⟨⟨t, c', some (s, c)⟩, hst2.2 (List.mem_append_right _ (List.mem_map.2 ⟨t, ht, rfl⟩)), rfl, rfl⟩ with h | ⟨st3, h3, h4, h5⟩
            · exact Or.inl h
            · exact Or.inr ⟨st3, h3, h4, List.Subset.trans hst2.2 h5⟩)
        rcases this with h | ⟨st3, h3, h4, h5⟩
        · exact Or.inl h
        · exact Or.inr ⟨st3, h3, h4, List.Subset.trans (List.Subset.trans hst1.2 hsub) h5⟩)
    exact this

theorem genAll_spec {σ : Type} (P : CTParams) (hd : 0 < P.dtMax) (hW : ∀ i < P.K, ∀ j < P.K, 0 ≤ P.W i j) (hlam : ∀ k < P.K, 0 ≤ P.lam0 k) (T : ℝ) (hT : 0 < T) (maxRound : ℕ) (rng : Rng σ)
    (hr : RngOk rng) (st : σ) :
    genAll P T maxRound rng st = .error .assertion ∨ ∃ st', genAll P T maxRound rng st = .ok st' ∧ ValidCascade P T st'.1 := by
  unfold genAll
  refine forListE_assert (fun st' : List GenEvent × σ => ValidCascade P T st'.1) _ _ _ (by intro e he; cases he) ?_
  intro k hk st1 hst1
  have hk' := List.mem_range.1 hk
  dsimp only
  rw [if_neg (not_lt.2 (mul_nonneg (hlam k hk') hT.le))]
  generalize hn : rng.poisson (P.lam0 k * T) st1.2 = n
  have hu := drawN_mem rng.rand (fun x => 0 ≤ x ∧ x < 1) hr n.1 n.2
  generalize drawN rng.rand n.1 n.2 = u at hu
  have hv : ValidCascade P T (st1.1 ++ (u.1.map fun x => x * T).map fun t => ⟨t, k, none⟩) := by
    intro e he
    rcases List.mem_append.1 he with he | he
    · obtain ⟨h1, h2, h3, h4⟩ := hst1 e he
      refine ⟨h1, h2, h3, fun s c hp => ?_⟩
      obtain ⟨⟨e', he', h5⟩, h6⟩ := h4 s c hp
      exact ⟨⟨e', List.mem_append_left _ he', h5⟩, h6⟩
    · obtain ⟨t, ht, rfl⟩ := List.mem_map.1 he
      obtain ⟨x, hx, rfl⟩ := List.mem_map.1 ht
      obtain ⟨a, b⟩ := hu x hx
      refine ⟨mul_nonneg a hT.le, ?_, hk', fun s c hp => by cases hp⟩
      change x * T < T
      nlinarith
  have := forListE_assert (fun st' : List GenEvent × σ => ValidCascade P T st'.1 ∧ (st1.1 ++ (u.1.map fun x => x * T).map fun t => (⟨t, k, none⟩ : GenEvent)) ⊆ st'.1)
    (fun t st => genHelper P T rng maxRound t k st) (u.1.map fun x => x * T) (st1.1 ++ (u.1.map fun x => x * T).map fun t => (⟨t, k, none⟩ : GenEvent), u.2)
    ⟨hv, List.Subset.refl _⟩ (by
      intro t ht st2 hst2
      rcases genHelper_spec P hd hW T rng maxRound t k st2 hst2.1
        ⟨⟨t, k, none⟩, hst2.2 (List.mem_append_right _ (List.mem_map.2 ⟨t, ht, rfl⟩)), rfl, rfl⟩ with h | ⟨st3, h3, h4, h5⟩
      · exact Or.inl h
      · exact Or.inr ⟨st3, h3, h4, List.Subset.trans hst2.2 h5⟩)
  rcases this with h | ⟨st3, h3, h4, -⟩
  · exact Or.inl h
  · exact Or.inr ⟨st3, h3, h4⟩

theorem genArgs_ok (P : CTParams) (T : ℝ) (evs : List GenEvent) (hv : ValidCascade P T evs) (hs : evs.Pairwise fun a b => a.time ≤ b.time) : CTArgsOk P.K (genArgs evs T) := by
  have hget : ∀ n (hn : n < evs.length), (genArgs evs T).S n = (evs[n]).time ∧ (genArgs evs T).C n = ((evs[n]).proc : ℕ) := by
    intro n hn
    unfold genArgs
    constructor
    · simp [List.getD_eq_getElem?_getD, hn]
    · simp [List.getD_eq_getElem?_getD, hn]
  refine ⟨rfl, rfl, rfl, fun _ => rfl, rfl, rfl, fun i j hij hj => ?_, fun n hn => ?_, fun n hn => ?_⟩
  · have hj' : j < evs.length := hj
    rw [(hget i (by omega)).1, (hget j hj').1]
    rcases hij.eq_or_lt with rfl | h
    · exact le_rfl
    · exact (List.pairwise_iff_getElem.1 hs) i j (by omega) hj' h
  · have hn' : n < evs.length := hn
    rw [(hget n hn').1]
    have := hv _ (List.getElem_mem hn')
    exact ⟨this.1, this.2.1⟩
  · have hn' : n < evs.length := hn
    rw [(hget n hn').2]
    have := hv _ (List.getElem_mem hn')
    exact ⟨by positivity, by exact_mod_cast this.2.2.1⟩

/-- **C30.** For every outcome of the random draws, every model with at least one process, nonnegative weights and background rates, and every `T > 0` and recursion limit: `generate` either stops with
the recursion-depth assertion, or returns events sorted by time in `[0,T)` with labels in `0..K-1`, in which every non-background event follows an event of the list by a lag in `(0, dt_max)` along
an edge with nonzero adjacency and weight; with `keep` the data list grows by exactly one data set with these events (`add_data` accepts them), otherwise it is unchanged. -/
theorem C30_generate {σ : Type} (P : CTParams) (hK : 0 < P.K) (hd : 0 < P.dtMax) (hW : ∀ i < P.K, ∀ j < P.K, 0 ≤ P.W i j) (hlam : ∀ k < P.K, 0 ≤ P.lam0 k) (T : ℝ) (hT : 0 < T)
    (maxRound : ℕ) (keep : Bool) (rng : Rng σ) (hr : RngOk rng) (sorter : List GenEvent → List GenEvent) (hsort : SorterOk sorter) (dl : List CTData) (st : σ) :
    ctGenerate P T maxRound keep rng sorter dl st = .error .assertion ∨
    ∃ evs dl', ctGenerate P T maxRound keep rng sorter dl st = .ok (evs, dl') ∧ ValidCascade P T evs ∧ (evs.Pairwise fun a b => a.time ≤ b.time) ∧
      (keep = false → dl' = dl) ∧
      (keep = true → ∃ D, dl' = dl ++ [D] ∧ D.N = evs.length ∧ D.T = T ∧ (∀ n (hn : n < evs.length), D.S n = (evs[n]).time ∧ D.C n = (evs[n]).proc) ∧ CTDataOk P.K P.dtMax D) := by
  unfold ctGenerate
  rcases genAll_spec P hd hW hlam T hT maxRound rng hr st with h | ⟨r, h, hv⟩
  · left; rw [h]
  · right
    rw [h]
    dsimp only
    rw [if_neg (by omega)]
    obtain ⟨hperm, hsorted⟩ := hsort r.1
    have hv' : ValidCascade P T (sorter r.1) := by
      intro e he
      obtain ⟨h1, h2, h3, h4⟩ := hv e (hperm.mem_iff.1 he)
      refine ⟨h1, h2, h3, fun s c hp => ?_⟩
      obtain ⟨⟨e', he', h5⟩, h6⟩ := h4 s c hp
      exact ⟨⟨e', hperm.mem_iff.2 he', h5⟩, h6⟩
    generalize sorter r.1 = evs at hsorted hv'
    cases keep with
    | false => exact ⟨evs, dl, by simp, hv', hsorted, fun _ => rfl, fun h => by cases h⟩
    | true =>
      obtain ⟨hiff, happ⟩ := C25_add_data P.K P.dtMax (genArgs evs T) dl
      obtain ⟨dl', hdl⟩ := hiff.2 (genArgs_ok P T evs hv' hsorted)
      obtain ⟨D, h1, h2, h3, h4, h5, -, h7⟩ := happ dl' hdl
      refine ⟨evs, dl', by simp [hdl], hv', hsorted, (fun h => by cases h), fun _ => ⟨D, h1, h2, h5, fun n hn => ?_, h7⟩⟩
      constructor
      · rw [h3]; simp [genArgs, List.getD_eq_getElem?_getD, hn]
      · have := h4 n (by rw [h2]; exact hn)
        have e : (genArgs evs T).C n = ((evs[n]).proc : ℕ) := by simp [genArgs, List.getD_eq_getElem?_getD, hn]
        rw [e] at this
        exact_mod_cast this

/-- a generator that returns one background event, one child, then nothing -/
noncomputable def demoRng : Rng ℕ := { poisson := fun _ s => (if s < 2 then 1 else 0, s + 1), randn := fun s => (0, s), rand := fun s => (1/2, s) }

/-- non-vacuity: with this generator the simulation succeeds with two events, the second a child of the first -/
example : ∃ st, genAll demoParams 10 5 demoRng 0 = .ok st ∧ st.1.map GenEvent.parent = [none, some (5, 0)] := by
  have hl : pyLogistic 0 1 = 1/2 := by unfold pyLogistic; norm_num
  have hlt : (5 + 1/2 : ℝ) < 10 := by norm_num
  refine ⟨([⟨5, 0, none⟩, ⟨5 + 1/2, 0, some (5, 0)⟩], 3), ?_, rfl⟩
  norm_num [genAll, demoParams, demoRng, List.range_succ, forListE, genHelper, childTimes, drawN, List.filter, hl]

end PyHawkes
