import Verif.Spec.Cut
import Verif.Props.LogLik
import Verif.Props.GibbsBasics

/-!
# C111: how a recording is cut into data sets does not matter to the Gibbs samplers
-/

set_option linter.unusedVariables false
set_option linter.unusedSectionVars false

namespace PyHawkes
open Finset Spec

/-! ### sums over bins and over events -/

theorem cut_sum {A : Type*} [AddCommMonoid A] {α β : Type*} (dl : List α) (g : α → List β) (f : β → A) :
    (dl.map fun D => ((g D).map f).sum).sum = ((dl.flatMap g).map f).sum := by
  induction dl with
  | nil => rfl
  | cons D l ih => simp [ih]

theorem bins_sum {A : Type*} [AddCommMonoid A] (D : DParents ℝ) (f : Vec ℕ → Mat ℝ → A) : ((bins D).map fun x => f x.1 x.2).sum = ∑ t ∈ range D.T, f (D.S t) (D.F t) := by
  unfold bins
  rw [List.map_map]
  rfl

theorem bins_total {A : Type*} [AddCommMonoid A] {dl dl' : List (DParents ℝ)} (h : SameBins dl dl') (f : Vec ℕ → Mat ℝ → A) :
    (dl'.map fun D => ∑ t ∈ range D.T, f (D.S t) (D.F t)).sum = (dl.map fun D => ∑ t ∈ range D.T, f (D.S t) (D.F t)).sum := by
  simp only [← bins_sum]
  rw [cut_sum dl' bins fun x => f x.1 x.2, cut_sum dl bins fun x => f x.1 x.2, h.1]

/-- the bins with events of process `k`, as the samplers see them -/
theorem rows_of_bins (D : DParents ℝ) (k : ℕ) : (D.Ss k).zip (D.Fs k) = ((bins D).filter fun x => x.1 k ≠ 0).map fun x => (toU32 (x.1 k), x.2) := by
  rw [zip_Ss_Fs]
  unfold bins DParents.ts
  rw [List.filter_map, List.map_map]
  rfl

theorem rows_flat (dl : List (DParents ℝ)) (k : ℕ) :
    dl.flatMap (fun D => (D.Ss k).zip (D.Fs k)) = ((dl.flatMap bins).filter fun x => x.1 k ≠ 0).map fun x => (toU32 (x.1 k), x.2) := by
  induction dl with
  | nil => rfl
  | cons D l ih => rw [List.flatMap_cons, List.flatMap_cons, List.filter_append, List.map_append, ih, rows_of_bins]

theorem cut_T {dl dl' : List (DParents ℝ)} (h : SameBins dl dl') : (dl'.map fun D => (D.T : ℝ)).sum = (dl.map fun D => (D.T : ℝ)).sum := by
  have := bins_total h fun _ _ => (1 : ℝ)
  simpa using this

theorem cut_Ns {dl dl' : List (DParents ℝ)} (h : SameBins dl dl') (k : ℕ) : (dl'.map fun D => (D.Ns k : ℝ)).sum = (dl.map fun D => (D.Ns k : ℝ)).sum := by
  have := bins_total h fun s _ => (s k : ℝ)
  simpa only [Ns_eq, Nat.cast_sum] using this

theorem cut_ll {dl dl' : List (DParents ℝ)} (h : SameBins dl dl') (P : NetParams ℝ) (k : ℕ) : (dl'.map fun D => llSingle P D k).sum = (dl.map fun D => llSingle P D k).sum := by
  simp only [llSingle_eq_sum]
  exact bins_total h fun s f => llBin P s f k

/-! ### log likelihood -/

/-- **C111 (log likelihood).** `log_likelihood()` does not depend on how the recordings are cut. -/
theorem C111_log_likelihood {dl dl' : List (DParents ℝ)} (h : SameBins dl dl') (P : NetParams ℝ) : llModel P dl' = llModel P dl := by
  rw [C08_model_sum, C08_model_sum]
  rw [show llData P = fun D => ∑ t ∈ range D.T, ∑ k2 ∈ range P.K, llBin P (D.S t) (D.F t) k2 from funext (llData_eq_sum P)]
  exact bins_total h fun s f => ∑ k ∈ range P.K, llBin P s f k

/-! ### the parents -/

/-- what one successful row draw returns -/
noncomputable def rowVal (row : (ℕ → Vec ℝ → Vec ℕ) → ℕ → Mat ℝ → Except PyErr (Vec ℕ)) (x : (ℕ → Vec ℝ → Vec ℕ) × ℕ × Mat ℝ) : Vec ℕ :=
  match row x.1 x.2.1 x.2.2 with
  | .ok z => z
  | .error _ => fun _ => 0

theorem rowsE_char (row : (ℕ → Vec ℝ → Vec ℕ) → ℕ → Mat ℝ → Except PyErr (Vec ℕ)) (mult : ℕ → ℕ → Vec ℝ → Vec ℕ) (rows : List (ℕ × Mat ℝ)) (zs : List (Vec ℕ)) :
    rowsE row mult rows = .ok zs ↔ (∀ x ∈ ((List.range rows.length).map mult).zip rows, ∃ z, row x.1 x.2.1 x.2.2 = .ok z) ∧
      zs = (((List.range rows.length).map mult).zip rows).map (rowVal row) := by
  induction rows generalizing mult zs with
  | nil => simp [rowsE, eq_comm]
  | cons r rest ih =>
    obtain ⟨st, ft⟩ := r
    have hz : ((List.range ((st, ft) :: rest).length).map mult).zip ((st, ft) :: rest)
        = (mult 0, st, ft) :: ((List.range rest.length).map fun i => mult (i + 1)).zip rest := by
      rw [List.length_cons, List.range_succ_eq_map, List.map_cons, List.map_map, List.zip_cons_cons]
      rfl
    rw [hz, List.forall_mem_cons, List.map_cons]
    rw [rowsE]
    have hv : ∀ z, row (mult 0) st ft = .ok z → rowVal row (mult 0, st, ft) = z := fun z hz => by simp only [rowVal, hz]
    cases h0 : row (mult 0) st ft with
    | error e => simp
    | ok z =>
      dsimp only
      rw [hv z h0]
      cases h1 : rowsE row (fun i => mult (i + 1)) rest with
      | error e =>
        dsimp only
        constructor
        · intro h; cases h
        · rintro ⟨⟨-, h⟩, -⟩
          have := (ih (fun i => mult (i + 1)) _).2 ⟨h, rfl⟩
          rw [h1] at this; cases this
      | ok zs' =>
        dsimp only
        obtain ⟨a, b⟩ := (ih (fun i => mult (i + 1)) zs').1 h1
        constructor
        · intro h; cases h; exact ⟨⟨⟨z, rfl⟩, a⟩, by rw [← b]⟩
        · rintro ⟨-, rfl⟩; rw [← b]

theorem collectE_char {α : Type*} (d : α) (f : ℕ → Except PyErr α) (n : ℕ) (g : ℕ → α) (v : ℕ → α) (hv : ∀ k x, f k = .ok x → v k = x) :
    collectE d f n = .ok g ↔ (∀ k < n, ∃ x, f k = .ok x) ∧ g = fun k => if k < n then v k else d := by
  induction n generalizing g with
  | zero => simp [collectE, eq_comm]
  | succ n ih =>
    unfold collectE
    cases h0 : collectE d f n with
    | error e =>
      dsimp only
      constructor
      · intro h; cases h
      · rintro ⟨h, -⟩
        have := (ih _).2 ⟨fun k hk => h k (by omega), rfl⟩
        rw [h0] at this; cases this
    | ok g0 =>
      dsimp only
      obtain ⟨a, b⟩ := (ih g0).1 h0
      cases h1 : f n with
      | error e =>
        dsimp only
        constructor
        · intro h; cases h
        · rintro ⟨h, -⟩
          obtain ⟨x, hx⟩ := h n (by omega)
          rw [h1] at hx; cases hx
      | ok x =>
        dsimp only
        have e : (fun k => if k = n then x else g0 k) = fun k => if k < n + 1 then v k else d := by
          funext k
          rw [b]
          by_cases hk : k = n
          · subst hk; rw [if_pos rfl, if_pos (by omega), hv k x h1]
          · rw [if_neg hk]
            beta_reduce
            by_cases hk' : k < n
            · rw [if_pos hk', if_pos (by omega)]
            · rw [if_neg hk', if_neg (by omega)]
        constructor
        · intro h
          cases h
          refine ⟨fun k hk => ?_, e⟩
          rcases Nat.lt_succ_iff_lt_or_eq.1 hk with hk | rfl
          · exact a k hk
          · exact ⟨x, h1⟩
        · rintro ⟨-, rfl⟩; rw [e]

/-- the row update of process `k` -/
noncomputable def rowFn (P : NetParams ℝ) (useGsl : Bool) (k : ℕ) := if useGsl then resampleRowGsl P k else resampleRowPy P k

theorem Ss_zip_length (D : DParents ℝ) (k : ℕ) : ((D.Ss k).zip (D.Fs k)).length = (D.ts k).length := by rw [zip_Ss_Fs, List.length_map]

theorem resampleParents_char (P : NetParams ℝ) (useGsl : Bool) (mult : ℕ → ℕ → ℕ → Vec ℝ → Vec ℕ) (D D' : DParents ℝ) :
    resampleParents P useGsl mult D = .ok D' ↔
      (∀ k < P.K, ∀ x ∈ ((List.range (D.ts k).length).map (mult k)).zip ((D.Ss k).zip (D.Fs k)), ∃ z, rowFn P useGsl k x.1 x.2.1 x.2.2 = .ok z) ∧
      D' = { D with Z := some fun k => if k < P.K then (((List.range (D.ts k).length).map (mult k)).zip ((D.Ss k).zip (D.Fs k))).map (rowVal (rowFn P useGsl k)) else [] } := by
  have key : ∀ k zs, rowsE (if useGsl then resampleRowGsl P k else resampleRowPy P k) (mult k) ((D.Ss k).zip (D.Fs k)) = .ok zs ↔ _ :=
    fun k zs => rowsE_char (rowFn P useGsl k) (mult k) ((D.Ss k).zip (D.Fs k)) zs
  simp only [Ss_zip_length] at key
  have hc := fun g => collectE_char [] (fun k => rowsE (if useGsl then resampleRowGsl P k else resampleRowPy P k) (mult k) ((D.Ss k).zip (D.Fs k))) P.K g
    (fun k => (((List.range (D.ts k).length).map (mult k)).zip ((D.Ss k).zip (D.Fs k))).map (rowVal (rowFn P useGsl k))) fun k x hx => ((key k x).1 hx).2.symm
  unfold resampleParents
  cases h : collectE [] (fun k => rowsE (if useGsl then resampleRowGsl P k else resampleRowPy P k) (mult k) ((D.Ss k).zip (D.Fs k))) P.K with
  | error e =>
    dsimp only
    constructor
    · intro h; cases h
    · rintro ⟨a, -⟩
      have := (hc _).2 ⟨fun k hk => ⟨_, (key k _).2 ⟨a k hk, rfl⟩⟩, rfl⟩
      rw [h] at this; cases this
  | ok g =>
    dsimp only
    obtain ⟨a, b⟩ := (hc g).1 h
    constructor
    · intro h
      cases h
      refine ⟨fun k hk => ?_, by rw [b]⟩
      obtain ⟨x, hx⟩ := a k hk
      exact ((key k x).1 hx).1
    · rintro ⟨-, rfl⟩; rw [b]

theorem drawsOf_length (mult : ℕ → ℕ → ℕ → ℕ → Vec ℝ → Vec ℕ) (dl : List (DParents ℝ)) (k : ℕ) :
    (drawsOf mult dl k).length = (dl.flatMap fun D => (D.Ss k).zip (D.Fs k)).length := by
  induction dl generalizing mult with
  | nil => rfl
  | cons D l ih =>
    rw [drawsOf, List.flatMap_cons, List.length_append, List.length_append, ih, List.length_map, List.length_range, Ss_zip_length]
    rfl

/-- the draws with the bins they belong to -/
noncomputable def drawRows (mult : ℕ → ℕ → ℕ → ℕ → Vec ℝ → Vec ℕ) (dl : List (DParents ℝ)) (k : ℕ) := (drawsOf mult dl k).zip (dl.flatMap fun D => (D.Ss k).zip (D.Fs k))

theorem drawRows_cons (mult : ℕ → ℕ → ℕ → ℕ → Vec ℝ → Vec ℕ) (D : DParents ℝ) (dl : List (DParents ℝ)) (k : ℕ) :
    drawRows mult (D :: dl) k = ((List.range (D.ts k).length).map (mult 0 k)).zip ((D.Ss k).zip (D.Fs k)) ++ drawRows (fun i => mult (i + 1)) dl k := by
  unfold drawRows
  rw [drawsOf, List.flatMap_cons, List.zip_append]
  · rfl
  · rw [List.length_map, List.length_range, Ss_zip_length]; rfl

/-- two data sets with the same bins; only parents differ -/
def SameCounts (D D' : DParents ℝ) : Prop := D'.T = D.T ∧ D'.S = D.S ∧ D'.F = D.F ∧ D'.EZ = D.EZ

theorem resampleDataList_char (P : NetParams ℝ) (useGsl : Bool) (mult : ℕ → ℕ → ℕ → ℕ → Vec ℝ → Vec ℕ) (dl : List (DParents ℝ)) :
    ((∃ dl', resampleDataList P useGsl mult dl = .ok dl') ↔ ∀ k < P.K, ∀ x ∈ drawRows mult dl k, ∃ z, rowFn P useGsl k x.1 x.2.1 x.2.2 = .ok z) ∧
    ∀ dl', resampleDataList P useGsl mult dl = .ok dl' → List.Forall₂ SameCounts dl dl' ∧
      ∀ k, dl'.flatMap (fun D => D.getZ k) = if k < P.K then (drawRows mult dl k).map (rowVal (rowFn P useGsl k)) else [] := by
  induction dl generalizing mult with
  | nil =>
    refine ⟨⟨fun _ k _ x hx => (by simp [drawRows, drawsOf] at hx), fun _ => ⟨[], rfl⟩⟩, fun dl' h => ?_⟩
    cases h
    exact ⟨.nil, fun k => by simp [drawRows, drawsOf]⟩
  | cons D l ih =>
    obtain ⟨i1, i2⟩ := ih fun i => mult (i + 1)
    have hp := resampleParents_char P useGsl (mult 0) D
    simp only [drawRows_cons, List.mem_append]
    constructor
    · constructor
      · rintro ⟨dl', h⟩ k hk x hx
        unfold resampleDataList at h
        cases h0 : resampleParents P useGsl (mult 0) D with
        | error e => rw [h0] at h; cases h
        | ok D' =>
          rw [h0] at h
          dsimp only at h
          cases h1 : resampleDataList P useGsl (fun i => mult (i + 1)) l with
          | error e => rw [h1] at h; cases h
          | ok l' =>
            rcases hx with hx | hx
            · exact ((hp D').1 h0).1 k hk x hx
            · exact i1.1 ⟨l', h1⟩ k hk x hx
      · intro h
        have h0 := (hp _).2 ⟨fun k hk x hx => h k hk x (.inl hx), rfl⟩
        obtain ⟨l', h1⟩ := i1.2 fun k hk x hx => h k hk x (.inr hx)
        unfold resampleDataList
        rw [h0, h1]
        exact ⟨_, rfl⟩
    · intro dl' h
      unfold resampleDataList at h
      cases h0 : resampleParents P useGsl (mult 0) D with
      | error e => rw [h0] at h; cases h
      | ok D' =>
        rw [h0] at h
        dsimp only at h
        cases h1 : resampleDataList P useGsl (fun i => mult (i + 1)) l with
        | error e => rw [h1] at h; cases h
        | ok l' =>
          rw [h1] at h
          cases h
          obtain ⟨j1, j2⟩ := i2 l' h1
          have hD := ((hp D').1 h0).2
          refine ⟨.cons (by rw [hD]; exact ⟨rfl, rfl, rfl, rfl⟩) j1, fun k => ?_⟩
          rw [List.flatMap_cons, j2, hD]
          by_cases hk : k < P.K
          · rw [if_pos hk, if_pos hk, List.map_append]
            congr 1
            show (if k < P.K then _ else _) = _
            rw [if_pos hk]
          · rw [if_neg hk, if_neg hk, List.append_nil]
            show (if k < P.K then _ else _) = _
            rw [if_neg hk]

theorem sameCounts_bins {dl dl' : List (DParents ℝ)} (h : List.Forall₂ SameCounts dl dl') : dl'.flatMap bins = dl.flatMap bins ∧ (dl' = [] ↔ dl = []) ∧
    (∀ mult k, drawsOf mult dl' k = drawsOf mult dl k) := by
  induction h with
  | nil => exact ⟨rfl, Iff.rfl, fun _ _ => rfl⟩
  | cons hD h ih =>
    rename_i D D' l l'
    obtain ⟨h1, h2, h3, -⟩ := hD
    refine ⟨?_, by simp, fun mult k => ?_⟩
    · rw [List.flatMap_cons, List.flatMap_cons, ih.1]
      simp only [bins, h1, h2, h3]
    · simp only [drawsOf, h1, h2, ih.2.2]

/-! ### one sweep -/

/-- everything the parameter updates take from the data agrees -/
structure SameStats (dl dl' : List (DParents ℝ)) : Prop where
  b0 : ∀ k, ssSum dl' (fun d => (bkgdSS0 d k : ℝ)) = ssSum dl fun d => (bkgdSS0 d k : ℝ)
  b1 : ∀ dt k, ssSum dl' (fun d => bkgdSS1 d dt k) = ssSum dl fun d => bkgdSS1 d dt k
  ir : ∀ B i j b, ssSum dl' (fun d => (irSS d B i j b : ℝ)) = ssSum dl fun d => (irSS d B i j b : ℝ)
  w0 : ∀ B i j, ssSum dl' (fun d => (weightSS0 d B i j : ℝ)) = ssSum dl fun d => (weightSS0 d B i j : ℝ)
  w1 : ∀ i j, ssSum dl' (fun d => (weightSS1 d i j : ℝ)) = ssSum dl fun d => (weightSS1 d i j : ℝ)
  ll : ∀ P k, dl'.foldl (fun acc d => acc + llSingle P d k) 0 = dl.foldl (fun acc d => acc + llSingle P d k) 0
  ne : dl' = [] ↔ dl = []

theorem sameStats {dl dl' : List (DParents ℝ)} (h : SameBins dl dl') (hz : ∀ k, dl'.flatMap (fun D => D.getZ k) = dl.flatMap fun D => D.getZ k) : SameStats dl dl' := by
  have key : ∀ (k : ℕ) (f : Vec ℕ → ℝ), (dl'.map fun D => ((D.getZ k).map f).sum).sum = (dl.map fun D => ((D.getZ k).map f).sum).sum := by
    intro k f
    rw [cut_sum dl' (fun D => D.getZ k) f, cut_sum dl (fun D => D.getZ k) f, hz]
  have hir : ∀ B i j b, ssSum dl' (fun d => (irSS d B i j b : ℝ)) = ssSum dl fun d => (irSS d B i j b : ℝ) := by
    intro B i j b
    rw [ssSum_eq, ssSum_eq]
    simpa only [irSS, Nat.cast_list_sum, List.map_map, Function.comp_def] using key j fun z => (z (1 + i * B + b) : ℝ)
  refine ⟨fun k => ?_, fun dt k => ?_, hir, fun B i j => ?_, fun i j => ?_, fun P k => ?_, h.2⟩
  · rw [ssSum_eq, ssSum_eq]
    simpa only [bkgdSS0, Nat.cast_list_sum, List.map_map, Function.comp_def] using key k fun z => (z 0 : ℝ)
  · rw [ssSum_eq, ssSum_eq]
    simp only [bkgdSS1, List.sum_map_mul_right]
    rw [cut_T h]
  · have e : ∀ l : List (DParents ℝ), ssSum l (fun d => (weightSS0 d B i j : ℝ)) = ∑ b ∈ range B, ssSum l fun d => (irSS d B i j b : ℝ) := by
      intro l
      simp only [ssSum_eq]
      induction l with
      | nil => simp
      | cons D l ih => simp only [List.map_cons, List.sum_cons, sum_add_distrib, ih]; congr 1; simp only [weightSS0, irSS, Nat.cast_sum]
    rw [e, e]
    exact sum_congr rfl fun b _ => hir B i j b
  · rw [ssSum_eq, ssSum_eq]
    exact cut_Ns h i
  · rw [foldl_add_eq, foldl_add_eq, cut_ll h]

theorem stats_serial {dl dl' : List (DParents ℝ)} (h : SameStats dl dl') (P : NetParams ℝ) (W p u A : Mat ℝ) : serialSweep P W p u dl' A = serialSweep P W p u dl A := by
  unfold serialSweep serialSite
  simp only [h.ll]

theorem stats_parallel {dl dl' : List (DParents ℝ)} (h : SameStats dl dl') (P : NetParams ℝ) (W p u : Mat ℝ) (order : List ℕ) (A : Mat ℝ) :
    parallelSweep P W p u dl' order A = parallelSweep P W p u dl order A := by
  have e : ∀ k (col : Vec ℝ), dl'.foldl (fun acc d => acc + llSinglePar P d k (fun k1 => col k1 * W k1 k)) 0 = dl.foldl (fun acc d => acc + llSinglePar P d k (fun k1 => col k1 * W k1 k)) 0 :=
    fun k col => h.ll { P with Weff := fun k1 _ => col k1 * W k1 k } k
  have e' : resampleColumn P W p u dl' A = resampleColumn P W p u dl A := by
    funext k
    unfold resampleColumn
    simp only [e]
  unfold parallelSweep
  rw [e']
  refine if_congr ?_ rfl rfl
  rw [List.length_eq_zero_iff, List.length_eq_zero_iff, h.ne]

theorem stats_bias {dl dl' : List (DParents ℝ)} (h : SameStats dl dl') (d : StepDraws) (s : HawkesState) : resampleBias d { s with data := dl' } = { resampleBias d { s with data := dl } with data := dl' } := by
  unfold resampleBias biasArgs
  simp only [h.b0, h.b1]

theorem stats_impulse {dl dl' : List (DParents ℝ)} (h : SameStats dl dl') (d : StepDraws) (s : HawkesState) : resampleImpulse d { s with data := dl' } = { resampleImpulse d { s with data := dl } with data := dl' } := by
  unfold resampleImpulse impulseArgs
  simp only [h.ir]

theorem stats_W {dl dl' : List (DParents ℝ)} (h : SameStats dl dl') (d : StepDraws) (s : HawkesState) : resampleWSS d { s with data := dl' } = { resampleWSS d { s with data := dl } with data := dl' } := by
  unfold resampleWSS weightArgs
  simp only [h.w0, h.w1]

theorem stats_A {dl dl' : List (DParents ℝ)} (h : SameStats dl dl') (d : StepDraws) (s : HawkesState) : resampleASS d { s with data := dl' } = { resampleASS d { s with data := dl } with data := dl' } := by
  unfold resampleASS
  simp only [stats_serial h, stats_parallel h]

theorem stats_AMix {dl dl' : List (DParents ℝ)} (h : SameStats dl dl') (kappa0 nu0 : ℝ) (d : StepDraws) (s : HawkesState) :
    resampleAMix kappa0 nu0 d { s with data := dl' } = { resampleAMix kappa0 nu0 d { s with data := dl } with data := dl' } := by
  have e : ∀ B κ V p u, mixA B kappa0 nu0 κ V p u dl' = mixA B kappa0 nu0 κ V p u dl := by
    intro B κ V p u
    funext i j
    unfold mixA
    rw [h.w0, h.w1]
  unfold resampleAMix
  simp only [e]

theorem stats_WMix {dl dl' : List (DParents ℝ)} (h : SameStats dl dl') (kappa0 nu0 : ℝ) (d : StepDraws) (s : HawkesState) :
    resampleWMix kappa0 nu0 d { s with data := dl' } = { resampleWMix kappa0 nu0 d { s with data := dl } with data := dl' } := by
  unfold resampleWMix mixWArgs
  simp only [h.w0, h.w1]

/-- the parents drawn with the same random numbers agree, and one call raises if and only if the other does -/
theorem cut_parents {dl dl' : List (DParents ℝ)} (h : SameBins dl dl') (P : NetParams ℝ) (useGsl : Bool) {mult mult' : ℕ → ℕ → ℕ → ℕ → Vec ℝ → Vec ℕ}
    (hd : ∀ k, drawsOf mult' dl' k = drawsOf mult dl k) :
    (∃ r r', resampleDataList P useGsl mult dl = .ok r ∧ resampleDataList P useGsl mult' dl' = .ok r' ∧ List.Forall₂ SameCounts dl r ∧ List.Forall₂ SameCounts dl' r' ∧ SameBins r r' ∧
      (∀ k, r'.flatMap (fun D => D.getZ k) = r.flatMap fun D => D.getZ k)) ∨
    (∃ e e', resampleDataList P useGsl mult dl = .error e ∧ resampleDataList P useGsl mult' dl' = .error e') := by
  have er : ∀ k, drawRows mult' dl' k = drawRows mult dl k := fun k => by unfold drawRows; rw [hd, rows_flat, rows_flat, h.1]
  obtain ⟨a1, a2⟩ := resampleDataList_char P useGsl mult dl
  obtain ⟨b1, b2⟩ := resampleDataList_char P useGsl mult' dl'
  simp only [er] at b1 b2
  have ab := a1.trans b1.symm
  cases hx : resampleDataList P useGsl mult dl with
  | error e =>
    cases hy : resampleDataList P useGsl mult' dl' with
    | error e' => exact .inr ⟨e, e', rfl, rfl⟩
    | ok r' => obtain ⟨r, hr⟩ := ab.2 ⟨r', hy⟩; rw [hx] at hr; cases hr
  | ok r =>
    obtain ⟨r', hy⟩ := ab.1 ⟨r, hx⟩
    obtain ⟨p1, p2⟩ := a2 r hx
    obtain ⟨q1, q2⟩ := b2 r' hy
    refine .inl ⟨r, r', rfl, hy, p1, q1, ⟨?_, ?_⟩, fun k => by rw [p2, q2]⟩
    · rw [(sameCounts_bins p1).1, (sameCounts_bins q1).1, h.1]
    · rw [(sameCounts_bins p1).2.1, (sameCounts_bins q1).2.1, h.2]

/-- what relates two runs: the states differ only in the cuts, the parents agree, and the draws still match -/
def CutsAfter (s s' t t' : HawkesState) : Prop :=
  SameButCuts t t' ∧ SameParents t t' ∧ List.Forall₂ SameCounts s.data t.data ∧ List.Forall₂ SameCounts s'.data t'.data

theorem cut_step (huge : ℝ) {s s' : HawkesState} (h : SameButCuts s s') {d d' : StepDraws} (hd : SameDraws s.data s'.data d d') :
    (∃ t t', resampleModelSS huge d s = .ok t ∧ resampleModelSS huge d' s' = .ok t' ∧ CutsAfter s s' t t') ∨
    (∃ e e', resampleModelSS huge d s = .error e ∧ resampleModelSS huge d' s' = .error e') := by
  obtain ⟨hb, hs⟩ := h
  obtain ⟨hd1, hd2⟩ := hd
  have hp : s'.params = s.params := by rw [hs]; rfl
  have hg : d'.useGsl = d.useGsl := by rw [hd1]
  unfold resampleModelSS
  rw [hp, hg]
  rcases cut_parents hb s.params d.useGsl hd2 with ⟨r, r', h1, h2, h3, h4, h5, h6⟩ | ⟨e, e', h1, h2⟩
  · rw [h1, h2]
    have hst := sameStats h5 h6
    refine .inl ⟨_, _, rfl, rfl, ⟨h5, ?_⟩, h6, h3, h4⟩
    have hs' : ({ s' with data := r' } : HawkesState) = { s with data := r' } := by rw [hs]
    rw [hs', hd1]
    show resampleASS d (resampleWSS d (resampleNet huge d (resampleImpulse d (resampleBias d { s with data := r' })))) = _
    rw [stats_bias hst, stats_impulse hst]
    exact (congrArg (resampleASS d) (stats_W hst d (resampleNet huge d (resampleImpulse d (resampleBias d { s with data := r }))))).trans
      (stats_A hst d (resampleWSS d (resampleNet huge d (resampleImpulse d (resampleBias d { s with data := r })))))
  · rw [h1, h2]
    exact .inr ⟨_, _, rfl, rfl⟩

theorem cut_step_mix (huge kappa0 nu0 : ℝ) (b : Bool) {s s' : HawkesState} (h : SameButCuts s s') {d d' : StepDraws} (hd : SameDraws s.data s'.data d d') :
    (∃ t t', resampleModelMix huge kappa0 nu0 b d s = .ok t ∧ resampleModelMix huge kappa0 nu0 b d' s' = .ok t' ∧ CutsAfter s s' t t') ∨
    (∃ e e', resampleModelMix huge kappa0 nu0 b d s = .error e ∧ resampleModelMix huge kappa0 nu0 b d' s' = .error e') := by
  obtain ⟨hb, hs⟩ := h
  obtain ⟨hd1, hd2⟩ := hd
  have hp : s'.paramsMix = s.paramsMix := by rw [hs]; rfl
  have hg : d'.useGsl = d.useGsl := by rw [hd1]
  unfold resampleModelMix
  rw [hp, hg]
  rcases cut_parents hb s.paramsMix d.useGsl hd2 with ⟨r, r', h1, h2, h3, h4, h5, h6⟩ | ⟨e, e', h1, h2⟩
  · rw [h1, h2]
    have hst := sameStats h5 h6
    have hs' : ({ s' with data := r' } : HawkesState) = { s with data := r' } := by rw [hs]
    have key : resampleWMix kappa0 nu0 d' (resampleAMix kappa0 nu0 d' (resampleImpulse d' (resampleBias d' { s' with data := r' })))
        = { resampleWMix kappa0 nu0 d (resampleAMix kappa0 nu0 d (resampleImpulse d (resampleBias d { s with data := r }))) with data := r' } := by
      rw [hs', hd1]
      show resampleWMix kappa0 nu0 d (resampleAMix kappa0 nu0 d (resampleImpulse d (resampleBias d { s with data := r' }))) = _
      rw [stats_bias hst, stats_impulse hst, stats_AMix hst]
      exact stats_WMix hst kappa0 nu0 d _
    dsimp only
    rw [key]
    have hn : resampleNet huge d' = resampleNet huge d := by rw [hd1]; rfl
    rw [hn]
    cases b
    · exact .inl ⟨_, _, rfl, rfl, ⟨h5, rfl⟩, h6, h3, h4⟩
    · exact .inl ⟨_, _, rfl, rfl, ⟨h5, rfl⟩, h6, h3, h4⟩
  · rw [h1, h2]
    exact .inr ⟨_, _, rfl, rfl⟩

theorem sameDraws_after {s s' t t' : HawkesState} (h : CutsAfter s s' t t') {d d' : StepDraws} (hd : SameDraws s.data s'.data d d') : SameDraws t.data t'.data d d' :=
  ⟨hd.1, fun k => by rw [(sameCounts_bins h.2.2.1).2.2, (sameCounts_bins h.2.2.2).2.2, hd.2]⟩

/-- **C111 (one sweep).** `resample_model()` of the spike-and-slab model, with the same random numbers, on two ways of cutting the same recordings: either both calls raise, or both return, with the same
parameters, the same network and the same parents of every event. -/
theorem C111_resample (huge : ℝ) {s s' : HawkesState} (h : SameButCuts s s') {d d' : StepDraws} (hd : SameDraws s.data s'.data d d') :
    (∃ t t', resampleModelSS huge d s = .ok t ∧ resampleModelSS huge d' s' = .ok t' ∧ SameButCuts t t' ∧ SameParents t t') ∨
    (∃ e e', resampleModelSS huge d s = .error e ∧ resampleModelSS huge d' s' = .error e') :=
  (cut_step huge h hd).imp (fun ⟨t, t', a, b, c⟩ => ⟨t, t', a, b, c.1, c.2.1⟩) id

/-- **C111 (one sweep of the gamma-mixture model).** -/
theorem C111_resample_mix (huge kappa0 nu0 : ℝ) (b : Bool) {s s' : HawkesState} (h : SameButCuts s s') {d d' : StepDraws} (hd : SameDraws s.data s'.data d d') :
    (∃ t t', resampleModelMix huge kappa0 nu0 b d s = .ok t ∧ resampleModelMix huge kappa0 nu0 b d' s' = .ok t' ∧ SameButCuts t t' ∧ SameParents t t') ∨
    (∃ e e', resampleModelMix huge kappa0 nu0 b d s = .error e ∧ resampleModelMix huge kappa0 nu0 b d' s' = .error e') :=
  (cut_step_mix huge kappa0 nu0 b h hd).imp (fun ⟨t, t', a, b, c⟩ => ⟨t, t', a, b, c.1, c.2.1⟩) id

/-- **C111 (any number of sweeps).** The same for any sequence of `resample_model()` calls. -/
theorem C111_run (huge : ℝ) (ds : List (StepDraws × StepDraws)) {s s' : HawkesState} (h : SameButCuts s s') (hd : ∀ p ∈ ds, SameDraws s.data s'.data p.1 p.2) :
    SameButCuts (runSS huge (ds.map fun p => .resample p.1) s) (runSS huge (ds.map fun p => .resample p.2) s') := by
  induction ds generalizing s s' with
  | nil => exact h
  | cons p ds ih =>
    simp only [List.map_cons, runSS]
    rcases cut_step huge h (hd p List.mem_cons_self) with ⟨t, t', e1, e2, c⟩ | ⟨e, e', e1, e2⟩
    · rw [e1, e2]
      exact ih c.1 fun q hq => sameDraws_after c (hd q (List.mem_cons_of_mem _ hq))
    · rw [e1, e2]
      exact ih h fun q hq => hd q (List.mem_cons_of_mem _ hq)

theorem C111_run_mix (huge kappa0 nu0 : ℝ) (ds : List ((StepDraws × StepDraws) × Bool)) {s s' : HawkesState} (h : SameButCuts s s') (hd : ∀ p ∈ ds, SameDraws s.data s'.data p.1.1 p.1.2) :
    SameButCuts (runMix huge kappa0 nu0 (ds.map fun p => (.resample p.1.1, p.2)) s) (runMix huge kappa0 nu0 (ds.map fun p => (.resample p.1.2, p.2)) s') := by
  induction ds generalizing s s' with
  | nil => exact h
  | cons p ds ih =>
    simp only [List.map_cons, runMix]
    rcases cut_step_mix huge kappa0 nu0 p.2 h (hd p List.mem_cons_self) with ⟨t, t', e1, e2, c⟩ | ⟨e, e', e1, e2⟩
    · rw [e1, e2]
      exact ih c.1 fun q hq => sameDraws_after c (hd q (List.mem_cons_of_mem _ hq))
    · rw [e1, e2]
      exact ih h fun q hq => hd q (List.mem_cons_of_mem _ hq)

/-- **C111 (joint log probability).** `log_probability()` of both models does not depend on the cuts. -/
theorem C111_log_probability (huge kappa0 nu0 : ℝ) {s s' : HawkesState} (h : SameButCuts s s') : logProbSS huge s' = logProbSS huge s ∧ logProbMix kappa0 nu0 s' = logProbMix kappa0 nu0 s := by
  obtain ⟨hb, hs⟩ := h
  unfold logProbSS logProbMix
  rw [C111_log_likelihood hb, C111_log_likelihood hb]
  rw [hs]
  exact ⟨rfl, rfl⟩

end PyHawkes
