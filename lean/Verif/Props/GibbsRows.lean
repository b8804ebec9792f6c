import Verif.Props.Sampler
import Verif.Spec.Posterior

/-!
# One `resample_model` call as a function of the parameters and the seeds

Used for C83. `sweep_eq`: on valid states, the parameters after `resample_model` are a function of the parameters before and of the seeds at the in-range call sites.
-/
set_option linter.unusedSectionVars false
set_option linter.unusedVariables false

namespace PyHawkes
open Finset Spec MeasureTheory

/-! ### parents -/

/-- the normalised parent probabilities of one event bin -/
noncomputable def probVec (P : NetParams ℝ) (k : ℕ) (ft : Mat ℝ) : Vec ℝ := fun j =>
  parentWeightsPy P k ft j / ∑ j ∈ range (1 + P.K * P.B), parentWeightsPy P k ft j

theorem parentSum_pos (P : NetParams ℝ) (k : ℕ) (ft : Mat ℝ) (hlam : 0 < P.lam0 k) (hW : ∀ i < P.K, 0 ≤ P.Weff i k) (hg : ∀ i < P.K, ∀ b < P.B, 0 ≤ P.g i k b)
    (hf : ∀ i < P.K, ∀ b < P.B, 0 ≤ ft i b) : 0 < ∑ j ∈ range (1 + P.K * P.B), parentWeightsPy P k ft j := by
  rw [sum_parentWeights]
  exact add_pos_of_pos_of_nonneg hlam (sum_nonneg fun i hi => sum_nonneg fun b hb =>
    mul_nonneg (mul_nonneg (hW i (mem_range.1 hi)) (hg i (mem_range.1 hi) b (mem_range.1 hb))) (hf i (mem_range.1 hi) b (mem_range.1 hb)))

theorem normalise_eq (P : NetParams ℝ) (k : ℕ) (ft : Mat ℝ) (hlam : 0 < P.lam0 k) (hW : ∀ i < P.K, 0 ≤ P.Weff i k) (hg : ∀ i < P.K, ∀ b < P.B, 0 ≤ P.g i k b)
    (hf : ∀ i < P.K, ∀ b < P.B, 0 ≤ ft i b) : normalise (1 + P.K * P.B) (parentWeightsPy P k ft) = .ok (probVec P k ft) := by
  unfold normalise
  rw [if_neg (parentSum_pos P k ft hlam hW hg hf).ne']
  rfl

theorem probVec_prob (P : NetParams ℝ) (k : ℕ) (ft : Mat ℝ) (hlam : 0 < P.lam0 k) (hW : ∀ i < P.K, 0 ≤ P.Weff i k) (hg : ∀ i < P.K, ∀ b < P.B, 0 ≤ P.g i k b)
    (hf : ∀ i < P.K, ∀ b < P.B, 0 ≤ ft i b) : IsProb (1 + P.K * P.B) (probVec P k ft) := by
  obtain ⟨p, h, hp, -⟩ := C12_probability_vector P k ft hlam hW hg hf
  rw [normalise_eq P k ft hlam hW hg hf] at h
  rw [Except.ok.inj h]
  exact hp

/-- the rows of sampled parents of one process -/
theorem rowsE_eq (P : NetParams ℝ) (useGsl : Bool) (k : ℕ) (S : Mat ℕ) (F : Ten ℝ) (hlam : 0 < P.lam0 k) (hW : ∀ i < P.K, 0 ≤ P.Weff i k)
    (hg : ∀ i < P.K, ∀ b < P.B, 0 ≤ P.g i k b) (l : List ℕ) (hl : ∀ t ∈ l, S t k ≠ 0 ∧ S t k < 2 ^ 32 ∧ ∀ i < P.K, ∀ b < P.B, 0 ≤ F t i b)
    (mult : ℕ → ℕ → Vec ℝ → Vec ℕ) :
    rowsE (if useGsl then resampleRowGsl P k else resampleRowPy P k) mult (l.map fun t => (toU32 (S t k), F t))
      = .ok (l.mapIdx fun r t => mult r (S t k) (probVec P k (F t))) := by
  induction l generalizing mult with
  | nil => rfl
  | cons t l ih =>
    obtain ⟨hne, h32, hf⟩ := hl t List.mem_cons_self
    have ih := ih (fun t' ht' => hl t' (List.mem_cons_of_mem _ ht')) (fun i => mult (i + 1))
    have hrow : (if useGsl then resampleRowGsl P k else resampleRowPy P k) (mult 0) (toU32 (S t k)) (F t) = .ok (mult 0 (S t k) (probVec P k (F t))) := by
      rw [toU32_of_lt h32]
      cases useGsl with
      | true =>
        simp only [if_true]
        unfold resampleRowGsl
        rw [C12_python_eq_gsl, normalise_eq P k _ hlam hW hg hf]
      | false =>
        simp only [Bool.false_eq_true, if_false]
        unfold resampleRowPy
        rw [if_neg hne, normalise_eq P k _ hlam hW hg hf]
    simp only [List.map_cons, rowsE, hrow, ih, List.mapIdx_cons]

theorem mem_ts {D : DParents ℝ} {k t : ℕ} (ht : t ∈ D.ts k) : t < D.T ∧ D.S t k ≠ 0 := by
  unfold DParents.ts at ht
  rw [List.mem_filter] at ht
  exact ⟨List.mem_range.1 ht.1, by simpa using ht.2⟩

/-- the sampled parents of all data sets; `c` lists the same data sets as `dl` -/
theorem dataList_eq (P : NetParams ℝ) (useGsl : Bool) (hlam : ∀ k < P.K, 0 < P.lam0 k) (hW : ∀ i < P.K, ∀ j < P.K, 0 ≤ P.Weff i j)
    (hg : ∀ i < P.K, ∀ j < P.K, ∀ b < P.B, 0 ≤ P.g i j b) (c dl : List (DParents ℝ)) (hD : ∀ D ∈ c, DataOk P.K P.B D)
    (hs : List.Forall₂ (fun D D' : DParents ℝ => D'.T = D.T ∧ D'.S = D.S ∧ D'.F = D.F) c dl) (mult : ℕ → ℕ → ℕ → ℕ → Vec ℝ → Vec ℕ) :
    ∃ dl', resampleDataList P useGsl mult dl = .ok dl' ∧ ∃ hlen : dl'.length = c.length,
      ∀ i : Fin c.length, let D := c[i]; let D' := dl'[(i : ℕ)]'(by rw [hlen]; exact i.2)
        (D'.T = D.T ∧ D'.S = D.S ∧ D'.F = D.F) ∧ ∀ k < P.K, D'.getZ k = (D.ts k).mapIdx fun r t => mult i k r (D.S t k) (probVec P k (D.F t)) := by
  induction hs generalizing mult with
  | nil => exact ⟨[], rfl, rfl, fun i => i.elim0⟩
  | @cons D D₁ c dl h _ ih =>
    obtain ⟨dl', h', hlen, hi⟩ := ih (fun D hD' => hD D (List.mem_cons_of_mem _ hD')) (fun i => mult (i + 1))
    obtain ⟨hT, hS, hF⟩ := h
    obtain ⟨dF, d32⟩ := hD D List.mem_cons_self
    have hts : ∀ k, D₁.ts k = D.ts k := fun k => by unfold DParents.ts; rw [hT, hS]
    have hrows : ∀ k < P.K, rowsE (if useGsl then resampleRowGsl P k else resampleRowPy P k) (mult 0 k) ((D₁.Ss k).zip (D₁.Fs k))
        = .ok ((D.ts k).mapIdx fun r t => mult 0 k r (D.S t k) (probVec P k (D.F t))) := by
      intro k hk
      rw [zip_Ss_Fs, hts, hS, hF]
      exact rowsE_eq P useGsl k D.S D.F (hlam k hk) (fun i hi => hW i hi k hk) (fun i hi => hg i hi k hk) _ (fun t ht => by
        obtain ⟨h1, h2⟩ := mem_ts ht
        exact ⟨h2, d32 t h1 k hk, dF t h1⟩) _
    obtain ⟨Z, hZ⟩ := collectE_total (d := ([] : List (Vec ℕ))) (n := P.K)
      (f := fun k2 => rowsE (if useGsl then resampleRowGsl P k2 else resampleRowPy P k2) (mult 0 k2) ((D₁.Ss k2).zip (D₁.Fs k2)))
      (fun k2 hk2 => ⟨_, hrows k2 hk2⟩)
    have hr : resampleParents P useGsl (mult 0) D₁ = .ok { D₁ with Z := some Z } := by unfold resampleParents; rw [hZ]
    refine ⟨{ D₁ with Z := some Z } :: dl', ?_, by simp [hlen], ?_⟩
    · unfold resampleDataList
      rw [hr]
      dsimp only
      rw [h']
    · intro i
      refine Fin.cases ?_ (fun i => ?_) i
      · refine ⟨⟨hT, hS, hF⟩, fun k hk => ?_⟩
        have := collectE_ok hZ k hk
        rw [hrows k hk] at this
        exact (Except.ok.inj this).symm
      · exact hi i

/-! ### rows -/

variable (c : HawkesState)

/-- the event bins of all processes in all data sets -/
abbrev Row := Σ k : Fin c.base.K, Σ i : Fin c.data.length, Fin ((c.data[i]).ts k).length

/-- number of parents an event can have: the background, and every basis function of every process -/
abbrev NPar : ℕ := 1 + c.base.K * c.base.B

/-- all sampled parent counts -/
abbrev ZSp := Row c → Fin (NPar c) → ℕ

variable {c}

/-- time bin of an event row -/
def rowBin (ρ : Row c) : ℕ := ((c.data[ρ.2.1]).ts ρ.1)[ρ.2.2]

/-- number of events in the bin -/
def rowCount (ρ : Row c) : ℕ := (c.data[ρ.2.1]).S (rowBin ρ) ρ.1

/-- filtered counts in the bin -/
def rowF (ρ : Row c) : Mat ℝ := (c.data[ρ.2.1]).F (rowBin ρ)

/-- count assigned to parent `j` in a row -/
def zAt (z : ZSp c) (ρ : Row c) (j : ℕ) : ℕ := if h : j < NPar c then z ρ ⟨j, h⟩ else 0

/-- events of process `k` assigned to the background -/
def bkgd (z : ZSp c) (k : Fin c.base.K) : ℕ := ∑ i, ∑ r, zAt z ⟨k, i, r⟩ 0

/-- events of process `e.2` assigned to basis function `b` of process `e.1` -/
def viaB (z : ZSp c) (e : Pair c.base.K) (b : ℕ) : ℕ := ∑ i, ∑ r, zAt z ⟨e.2, i, r⟩ (1 + e.1 * c.base.B + b)

/-- events of process `e.2` assigned to process `e.1` -/
def via (z : ZSp c) (e : Pair c.base.K) : ℕ := ∑ b ∈ range c.base.B, viaB z e b

/-- total number of events of process `k` -/
def evTotal (c : HawkesState) (k : ℕ) : ℝ := ∑ i : Fin c.data.length, ((c.data[i]).Ns k : ℝ)

/-- total observed time -/
noncomputable def timeTotal (c : HawkesState) : ℝ := ∑ i : Fin c.data.length, ((c.data[i]).T : ℝ) * c.base.dt

theorem ssSum_fin (dl : List (DParents ℝ)) (f : DParents ℝ → ℝ) : ssSum dl f = ∑ i : Fin dl.length, f dl[i] := by
  rw [ssSum_eq]
  exact (Fin.sum_univ_fun_getElem dl f).symm

/-- statistics of the sampled parents -/
structure StatsOk (c : HawkesState) (dl : List (DParents ℝ)) (z : ZSp c) : Prop where
  bkgd0 : ∀ k : Fin c.base.K, (ssSum dl fun d => (bkgdSS0 d k : ℝ)) = bkgd z k
  bkgd1 : ∀ k, (ssSum dl fun d => bkgdSS1 d c.base.dt k) = timeTotal c
  ir : ∀ e : Pair c.base.K, ∀ b < c.base.B, (ssSum dl fun d => (irSS d c.base.B e.1 e.2 b : ℝ)) = viaB z e b
  w0 : ∀ e : Pair c.base.K, (ssSum dl fun d => (weightSS0 d c.base.B e.1 e.2 : ℝ)) = via z e
  w1 : ∀ i j, (ssSum dl fun d => (weightSS1 d i j : ℝ)) = evTotal c i
  same : List.Forall₂ (fun D D' : DParents ℝ => D'.T = D.T ∧ D'.S = D.S ∧ D'.F = D.F) c.data dl

theorem col_lt {K B k b : ℕ} (hk : k < K) (hb : b < B) : 1 + k * B + b < 1 + K * B := by
  have : k * B + b < K * B := by
    calc k * B + b < k * B + B := by omega
      _ = (k + 1) * B := by ring
      _ ≤ K * B := Nat.mul_le_mul_right _ hk
  omega

theorem stats_ok {dl : List (DParents ℝ)} (m : ℕ → ℕ → ℕ → ℕ → Mat ℝ → Vec ℕ) (hlen : dl.length = c.data.length)
    (h : ∀ i : Fin c.data.length, let D := c.data[i]; let D' := dl[(i : ℕ)]'(by rw [hlen]; exact i.2)
        (D'.T = D.T ∧ D'.S = D.S ∧ D'.F = D.F) ∧ ∀ k < c.base.K, D'.getZ k = (D.ts k).mapIdx fun r t => m i k r (D.S t k) (D.F t)) :
    StatsOk c dl fun ρ j => m ρ.2.1 ρ.1 ρ.2.2 (rowCount ρ) (rowF ρ) j := by
  set z : ZSp c := fun ρ j => m ρ.2.1 ρ.1 ρ.2.2 (rowCount ρ) (rowF ρ) j with hz
  have hsum : ∀ f : DParents ℝ → ℝ, ssSum dl f = ∑ i : Fin c.data.length, f (dl[(i : ℕ)]'(by rw [hlen]; exact i.2)) := by
    intro f
    rw [ssSum_fin]
    exact Fintype.sum_equiv (finCongr hlen) _ _ fun i => rfl
  have hcol : ∀ (k : Fin c.base.K) (i : Fin c.data.length) (j : ℕ), j < NPar c →
      (((dl[(i : ℕ)]'(by rw [hlen]; exact i.2)).getZ k).map fun z => z j).sum = ∑ r, zAt z ⟨k, i, r⟩ j := by
    intro k i j hj
    rw [(h i).2 k k.2, ← Fin.sum_univ_fun_getElem]
    refine Fintype.sum_equiv (finCongr (by simp)) _ _ fun r => ?_
    simp only [List.getElem_mapIdx, finCongr_apply, zAt, dif_pos hj, hz]
    rfl
  have hpos : ∀ e : Pair c.base.K, ∀ b < c.base.B, 1 + (e.1 : ℕ) * c.base.B + b < NPar c := fun e b hb => col_lt e.1.2 hb
  constructor
  · intro k
    rw [hsum]
    unfold bkgd bkgdSS0
    rw [Nat.cast_sum]
    refine sum_congr rfl fun i _ => ?_
    rw [hcol k i 0 (by unfold NPar; omega)]
  · intro k
    rw [hsum]
    unfold timeTotal bkgdSS1
    refine sum_congr rfl fun i _ => ?_
    rw [((h i).1).1]
  · intro e b hb
    rw [hsum]
    unfold viaB irSS
    rw [Nat.cast_sum]
    refine sum_congr rfl fun i _ => ?_
    rw [hcol e.2 i _ (hpos e b hb)]
  · intro e
    rw [hsum]
    unfold via weightSS0 viaB
    rw [Finset.sum_comm, Nat.cast_sum]
    refine sum_congr rfl fun i _ => ?_
    congr 1
    refine sum_congr rfl fun b hb => ?_
    rw [hcol e.2 i _ (hpos e b (mem_range.1 hb))]
  · intro a b
    rw [hsum]
    unfold evTotal weightSS1
    refine sum_congr rfl fun i _ => ?_
    obtain ⟨⟨hT, hS, -⟩, -⟩ := h i
    unfold DParents.Ns DParents.ts
    rw [hT, hS]
  · exact List.forall₂_iff_get.2 ⟨hlen.symm, fun i h1 h2 => (h ⟨i, h1⟩).1⟩

end PyHawkes
