import Verif.Props.NLNode
import Mathlib.Data.List.MinMax

/-!
# Nonlinear models: data lists (C44, C73), held-out evaluation and copying (C39), read-only properties (C38), fitting (C74)
-/

set_option linter.unusedSectionVars false

namespace PyHawkes
open Finset Spec

/-- every node of the process was built with the process' sizes -/
def NLUniform (P : NLProc) : Prop := ∀ nd ∈ P.nodes, nd.K = P.K ∧ nd.B = P.B

/-! ### Loops over the nodes -/

/-- what the loop of `add_data` leaves behind when all nodes accept -/
def appendAll (F : Mat ℝ) (T : ℕ) (S : Mat ℤ) (k : ℕ) (nds : List NLNode) : List NLNode :=
  nds.mapIdx fun i nd => { nd with data := nd.data ++ [⟨T, fun t => (S t (k + i)).toNat, F⟩] }

theorem appendAll_getElem {F : Mat ℝ} {T : ℕ} {S : Mat ℤ} {k i : ℕ} {nds : List NLNode} (h : i < (appendAll F T S k nds).length) (h' : i < nds.length) :
    (appendAll F T S k nds)[i] = { nds[i] with data := nds[i].data ++ [⟨T, fun t => (S t (k + i)).toNat, F⟩] } := by
  simp only [appendAll, List.getElem_mapIdx]

theorem appendAll_length {F : Mat ℝ} {T : ℕ} {S : Mat ℤ} {k : ℕ} {nds : List NLNode} : (appendAll F T S k nds).length = nds.length := by
  unfold appendAll
  rw [List.length_mapIdx]

theorem addLoop_ok {K B T cols : ℕ} {F : Mat ℝ} {S : Mat ℤ} (hc : cols = 1 + K * B) (nds : List NLNode) (h : ∀ nd ∈ nds, nd.K = K ∧ nd.B = B) (k : ℕ) :
    nlAddLoop none T cols F T S k nds = (appendAll F T S k nds, .ok ()) := by
  induction nds generalizing k with
  | nil => rfl
  | cons nd nds ih =>
    unfold nlAddLoop
    rw [if_neg (by simp)]
    have h1 : nd.addData T cols F T (fun t => (S t k).toNat) = .ok { nd with data := nd.data ++ [⟨T, fun t => (S t k).toNat, F⟩] } := by
      unfold NLNode.addData
      obtain ⟨e1, e2⟩ := h nd (by simp)
      rw [e1, e2, if_neg (by simp), if_neg (by omega), if_neg (by omega)]
    rw [h1]
    dsimp only
    rw [ih (fun nd hnd => h nd (List.mem_cons_of_mem _ hnd)) (k + 1)]
    unfold appendAll
    rw [List.mapIdx_cons]
    simp only [add_zero]
    congr 3
    funext i nd
    rw [show k + 1 + i = k + (i + 1) by omega]

theorem addLoop_reject {K B T rows cols : ℕ} {F : Mat ℝ} {S : Mat ℤ} (hc : ¬ (rows = T ∧ cols = 1 + K * B)) {nds : List NLNode} (hne : nds ≠ []) (h : ∀ nd ∈ nds, nd.K = K ∧ nd.B = B) (k : ℕ) :
    ∃ e, nlAddLoop none rows cols F T S k nds = (nds, .error e) := by
  cases nds with
  | nil => exact absurd rfl hne
  | cons nd nds =>
    unfold nlAddLoop
    rw [if_neg (by simp)]
    have h1 : ∃ e, nd.addData rows cols F T (fun t => (S t k).toNat) = .error e := by
      unfold NLNode.addData
      obtain ⟨e1, e2⟩ := h nd (by simp)
      rw [e1, e2]
      by_cases c1 : T ≠ rows
      · rw [if_pos c1]; exact ⟨_, rfl⟩
      rw [if_neg c1]
      by_cases c2 : cols = K * B
      · rw [if_pos c2]; exact ⟨_, rfl⟩
      rw [if_neg c2, if_pos (by rw [not_not] at c1; exact fun h => hc ⟨c1.symm, h⟩)]
      exact ⟨_, rfl⟩
    obtain ⟨e, he⟩ := h1
    rw [he]
    exact ⟨e, rfl⟩

theorem removeLoop_none {n : ℕ} {i : ℤ} (hi : pyIdx n i = none) (nds : List NLNode) (h : ∀ nd ∈ nds, nd.data.length = n) : (nlRemoveLoop i nds).1 = nds := by
  cases nds with
  | nil => rfl
  | cons nd nds =>
    unfold nlRemoveLoop
    rw [h nd (by simp), hi]

theorem removeLoop_some {n j : ℕ} {i : ℤ} (hi : pyIdx n i = some j) (nds : List NLNode) (h : ∀ nd ∈ nds, nd.data.length = n) :
    nlRemoveLoop i nds = (nds.map fun nd => { nd with data := nd.data.eraseIdx j }, .ok ()) := by
  induction nds with
  | nil => rfl
  | cons nd nds ih =>
    unfold nlRemoveLoop
    rw [h nd (by simp), hi]
    dsimp only
    rw [ih fun nd hnd => h nd (List.mem_cons_of_mem _ hnd)]
    rfl

theorem pyIdx_spec {n : ℕ} {i : ℤ} {j : ℕ} (h : pyIdx n i = some j) : PyPos n i j := by
  unfold pyIdx at h
  unfold PyPos
  split at h
  · have := Option.some.inj h; omega
  · split at h
    · have := Option.some.inj h; omega
    · cases h

theorem pyIdx_none {n : ℕ} {i : ℤ} (h : pyIdx n i = none) (j : ℕ) : ¬ PyPos n i j := by
  unfold pyIdx at h
  unfold PyPos
  split at h
  · cases h
  · split at h
    · cases h
    · omega

/-! ### C73 for the nonlinear models -/

theorem nlFilter_ok {P : NLProc} {a : NLArgs} (hL : 0 < P.L) (hB : 0 < P.B) (hT : 0 < a.T) (hK : 0 < P.K) :
    ∃ r c F, nlFilter a P = .ok (r, c, F) ∧ (∀ r' c' F', a.F = some (r', c', F') → r = r' ∧ c = c' ∧ F = F') ∧
      (a.F = none → r = a.T ∧ c = 1 + P.K * P.B ∧ ∀ t < a.T, F t 0 = 1 ∧ ∀ k < P.K, ∀ b < P.B, F t (1 + k * P.B + b) = filtered P.L P.basis (fun t k => (a.S t k : ℝ)) t k b) := by
  unfold nlFilter
  cases hF : a.F with
  | some q =>
    obtain ⟨r, c, F⟩ := q
    refine ⟨r, c, F, rfl, ?_, (fun h => by cases h)⟩
    intro r' c' F' h
    cases h
    exact ⟨rfl, rfl, rfl⟩
  | none =>
    obtain ⟨F, h1, h2⟩ := C02_convolve_eq_filtered a.T P.K P.L P.B P.basis (fun t k => (a.S t k : ℝ)) hT hK hL hB
    dsimp only
    rw [h1]
    refine ⟨_, _, _, rfl, (fun _ _ _ h => by cases h), fun _ => ⟨rfl, rfl, fun t ht => ⟨rfl, fun k hk b hb => ?_⟩⟩⟩
    rw [show 1 + k * P.B + b = k * P.B + b + 1 by omega]
    show F t ((k * P.B + b) / P.B) ((k * P.B + b) % P.B) = _
    rw [show k * P.B + b = b + k * P.B by omega, Nat.add_mul_div_right _ _ hB, Nat.div_eq_of_lt hb, zero_add, Nat.add_mul_mod_self_right, Nat.mod_eq_of_lt hb]
    exact h2 t ht k hk b hb

theorem nlAddData_valid {P : NLProc} {a : NLArgs} (hL : 0 < P.L) (hB : 0 < P.B) (_hU : NLUniform P) (hv : NLValid P.K P.B a) :
    ∃ D, NLSetOf P.K P.B P.L P.basis a D ∧ D.S = (fun t k => (a.S t k).toNat) ∧ (∀ nds, ({ P with nodes := nds } : NLProc).nodes.length = P.nodes.length → NLUniform { P with nodes := nds } →
      nlAddData none a { P with nodes := nds } = ({ P with nodes := appendAll D.F D.T a.S 0 nds }, .ok ())) := by
  obtain ⟨h1, h2, h3, h4, h5, h6⟩ := hv
  obtain ⟨r, c, F, e1, e2, e3⟩ := nlFilter_ok (a := a) hL hB h2 h3
  have hrc : r = a.T ∧ c = 1 + P.K * P.B := by
    cases hF : a.F with
    | none => exact ⟨(e3 hF).1, (e3 hF).2.1⟩
    | some q =>
      obtain ⟨r', c', F'⟩ := q
      obtain ⟨q1, q2, q3⟩ := e2 r' c' F' hF
      obtain ⟨w1, w2⟩ := h6 r' c' F' hF
      exact ⟨q1.trans w1, q2.trans w2⟩
  refine ⟨⟨a.T, fun t k => (a.S t k).toNat, F⟩, ⟨rfl, fun t ht k hk => Int.toNat_of_nonneg (h4 t ht k hk), fun r' c' F' h => (e2 r' c' F' h).2.2, fun h => (e3 h).2.2⟩, rfl, ?_⟩
  intro nds _ hU'
  unfold nlAddData
  dsimp only
  rw [if_neg (by simp [h1]), if_neg (by omega), if_neg (by rw [not_not, h1]; exact ⟨h4, h5⟩)]
  have e1' : nlFilter a { P with nodes := nds } = .ok (r, c, F) := e1
  rw [e1']
  dsimp only
  obtain ⟨rfl, hc⟩ := hrc
  rw [addLoop_ok hc nds hU' 0]

theorem nlAddData_invalid {P : NLProc} {a : NLArgs} (hL : 0 < P.L) (hB : 0 < P.B) (hlen : P.nodes.length = P.K) (hU : NLUniform P) (hv : ¬ NLValid P.K P.B a) :
    ∃ e, nlAddData none a P = (P, .error e) := by
  unfold nlAddData
  by_cases c1 : a.KS ≠ P.K
  · rw [if_pos c1]; exact ⟨_, rfl⟩
  rw [if_neg c1]
  by_cases c2 : a.T = 0 ∨ a.KS = 0
  · rw [if_pos c2]; exact ⟨_, rfl⟩
  rw [if_neg c2]
  by_cases c3 : ¬ ((∀ t < a.T, ∀ k < a.KS, 0 ≤ a.S t k) ∧ a.isInt = true)
  · rw [if_pos c3]; exact ⟨_, rfl⟩
  rw [if_neg c3]
  rw [not_not] at c1 c3
  have hK : 0 < P.K := by omega
  obtain ⟨r, c, F, e1, e2, e3⟩ := nlFilter_ok (a := a) hL hB (by omega) hK
  rw [e1]
  dsimp only
  have hrc : ¬ (r = a.T ∧ c = 1 + P.K * P.B) := by
    rintro ⟨q1, q2⟩
    apply hv
    refine ⟨c1, by omega, hK, by rw [c1] at c3; exact c3.1, c3.2, fun r' c' F' h => ?_⟩
    obtain ⟨w1, w2, _⟩ := e2 r' c' F' h
    exact ⟨w1 ▸ q1, w2 ▸ q2⟩
  obtain ⟨e, he⟩ := addLoop_reject (F := F) (S := a.S) hrc (nds := P.nodes) (by rw [← List.length_pos_iff]; omega) hU 0
  rw [he]
  exact ⟨e, rfl⟩

/-- **C73 (nonlinear models).** `add_data(S, F)` of a process with a nonempty basis succeeds exactly for valid arguments: a nonempty `T × K` integer array of nonnegative counts and regressors, if given, of shape `T × (1 + K*B)`. -/
theorem C73_nonlinear_accepts_iff {P : NLProc} (hL : 0 < P.L) (hB : 0 < P.B) (hlen : P.nodes.length = P.K) (hU : NLUniform P) (a : NLArgs) :
    (nlAddData none a P).2 = .ok () ↔ NLValid P.K P.B a := by
  by_cases hv : NLValid P.K P.B a
  · obtain ⟨D, _, _, h⟩ := nlAddData_valid hL hB hU hv
    have := h P.nodes rfl hU
    rw [show ({ P with nodes := P.nodes } : NLProc) = P from rfl] at this
    rw [this]
    exact ⟨fun _ => hv, fun _ => rfl⟩
  · obtain ⟨e, he⟩ := nlAddData_invalid hL hB hlen hU hv
    rw [he]
    exact ⟨(fun h => by cases h), fun h => absurd h hv⟩

/-! ### C39 -/

theorem eraseIdx_append_last {α : Type*} (l : List α) (x : α) : (l ++ [x]).eraseIdx l.length = l := by
  rw [List.eraseIdx_append_of_length_le (le_refl _)]
  simp

theorem map_erase_appendAll {F : Mat ℝ} {T : ℕ} {S : Mat ℤ} {k n : ℕ} (nds : List NLNode) (h : ∀ nd ∈ nds, nd.data.length = n) :
    (appendAll F T S k nds).map (fun nd => { nd with data := nd.data.eraseIdx n }) = nds := by
  apply List.ext_getElem
  · rw [List.length_map, appendAll_length]
  · intro i h1 h2
    rw [List.getElem_map, appendAll_getElem _ h2]
    have := h nds[i] (List.getElem_mem h2)
    dsimp only
    rw [← this, eraseIdx_append_last]

/-- the nodes without their data -/
def stripData (nds : List NLNode) : List NLNode := nds.map fun nd => { nd with data := [] }

theorem logLik_last {nd : NLNode} {l : List NLData} {D : NLData} : NLNode.logLik { nd with data := l ++ [D] } (some (-1)) = NLNode.logLik { nd with data := [D] } none := by
  unfold NLNode.logLik
  dsimp only
  have : pyIdx (l ++ [D]).length (-1) = some l.length := by
    rw [List.length_append]
    exact pyIdx_last l.length
  rw [this]
  dsimp only
  rw [List.getElem?_append_right (le_refl _), Nat.sub_self]
  rfl

theorem forListE_mapIdx_congr {α σ : Type*} {f g : α → σ → Except PyErr σ} : ∀ (xs ys : List α), xs.length = ys.length → (∀ i (h : i < xs.length) (h' : i < ys.length), f xs[i] = g ys[i]) →
    ∀ s, forListE xs f s = forListE ys g s
  | [], [], _, _, s => rfl
  | [], _ :: _, h, _, _ => by simp at h
  | _ :: _, [], h, _, _ => by simp at h
  | x :: xs, y :: ys, h, hfg, s => by
    unfold forListE
    have h0 := hfg 0 (by simp) (by simp)
    simp only [List.getElem_cons_zero] at h0
    rw [h0]
    cases g y s with
    | error e => rfl
    | ok s' =>
      dsimp only
      exact forListE_mapIdx_congr xs ys (by simpa using h) (fun i h1 h2 => by
        have := hfg (i + 1) (by simpa using h1) (by simpa using h2)
        simpa using this) s'

theorem nlLogLik_last {F : Mat ℝ} {T : ℕ} {S : Mat ℤ} (P : NLProc) :
    nlLogLik (some (-1)) { P with nodes := appendAll F T S 0 P.nodes } = nlLogLik none { P with nodes := appendAll F T S 0 (stripData P.nodes) } := by
  unfold nlLogLik
  apply forListE_mapIdx_congr
  · simp [appendAll, stripData]
  · intro i h1 h2
    funext s
    unfold nlLLStep
    dsimp only at h1 h2 ⊢
    have hi : i < P.nodes.length := by rw [appendAll_length] at h1; exact h1
    rw [appendAll_getElem h1 hi, appendAll_getElem h2 (by rw [appendAll_length] at h2; exact h2), logLik_last]
    simp only [stripData, List.getElem_map]
    rfl

theorem nodeLogLik_cases (nd : NLNode) : (∃ v, nd.logLik none = .ok v) ∨ nd.logLik none = .error .silentNan := by
  by_cases h : RatesPos nd nd.w
  · exact .inl ⟨_, nodeLogLik_ok h⟩
  · exact .inr (nodeLogLik_error h)

theorem nlLogLik_cases (P : NLProc) : nlLogLik none P ≠ .error .index := by
  unfold nlLogLik
  generalize (0:ℝ) = s
  induction P.nodes generalizing s with
  | nil => unfold forListE; intro h; cases h
  | cons nd nds ih =>
    unfold forListE nlLLStep
    rcases nodeLogLik_cases nd with ⟨v, hv⟩ | hv
    · rw [hv]
      exact ih _
    · rw [hv]
      dsimp only
      intro h
      cases h

/-- **C39 (nonlinear models).** A call of `heldout_log_likelihood(S, F)` that is not interrupted leaves the process exactly as it was, whatever the arguments (also rejected ones), provided its nodes hold equally many data sets (C44);
a value it returns is the log likelihood of a process with the same parameters and the held-out data only. -/
theorem C39_nonlinear_heldout {P : NLProc} (hL : 0 < P.L) (hB : 0 < P.B) (hlen : P.nodes.length = P.K) (hU : NLUniform P) {n : ℕ} (hn : ∀ nd ∈ P.nodes, nd.data.length = n) (a : NLArgs) :
    (nlHeldout false a P).1 = P ∧
    ∀ v, (nlHeldout false a P).2 = .ok v → ∃ P1, nlAddData none a { P with nodes := P.nodes.map fun nd => { nd with data := [] } } = (P1, .ok ()) ∧ nlLogLik none P1 = .ok v := by
  by_cases hv : NLValid P.K P.B a
  · obtain ⟨D, _, _, h⟩ := nlAddData_valid hL hB hU hv
    have hadd := h P.nodes rfl hU
    rw [show ({ P with nodes := P.nodes } : NLProc) = P from rfl] at hadd
    have hstrip := h (stripData P.nodes) (by simp [stripData]) (by
      intro nd hnd
      obtain ⟨nd', h', rfl⟩ := List.mem_map.1 hnd
      exact hU nd' h')
    have hrem : nlRemoveData (-1) { P with nodes := appendAll D.F D.T a.S 0 P.nodes } = (P, .ok ()) := by
      unfold nlRemoveData
      dsimp only
      rw [removeLoop_some (n := n + 1) (j := n) (pyIdx_last n)]
      · dsimp only
        rw [map_erase_appendAll P.nodes hn]
      · intro nd hnd
        unfold appendAll at hnd
        obtain ⟨i, hi, rfl⟩ := List.mem_mapIdx.1 hnd
        simp [hn P.nodes[i] (List.getElem_mem hi)]
    unfold nlHeldout
    rw [hadd]
    dsimp only
    rw [if_neg (by simp), nlLogLik_last, if_neg (nlLogLik_cases _), hrem]
    exact ⟨rfl, fun v hv' => ⟨_, hstrip, hv'⟩⟩
  · obtain ⟨e, he⟩ := nlAddData_invalid hL hB hlen hU hv
    unfold nlHeldout
    rw [he]
    exact ⟨rfl, (fun v h => by cases h)⟩

/-- **C39 (nonlinear, violated).** Interrupted during the evaluation, the held-out data stay in every node. -/
theorem C39_nonlinear_heldout_interrupted_violated {P : NLProc} (hL : 0 < P.L) (hB : 0 < P.B) (hU : NLUniform P) {a : NLArgs} (hv : NLValid P.K P.B a) {k : ℕ} (hk : k < P.nodes.length) :
    ∃ h : k < (nlHeldout true a P).1.nodes.length, ((nlHeldout true a P).1.nodes[k]).data.length = P.nodes[k].data.length + 1 := by
  obtain ⟨D, _, _, h⟩ := nlAddData_valid hL hB hU hv
  have hadd := h P.nodes rfl hU
  rw [show ({ P with nodes := P.nodes } : NLProc) = P from rfl] at hadd
  have e : (nlHeldout true a P).1 = { P with nodes := appendAll D.F D.T a.S 0 P.nodes } := by
    unfold nlHeldout
    rw [hadd]
    dsimp only
    rw [if_pos rfl]
  simp only [e]
  refine ⟨by simpa [appendAll] using hk, ?_⟩
  unfold appendAll
  rw [List.getElem_mapIdx]
  simp

theorem copyLoop_none (k : ℕ) (nds : List NLNode) : nlCopyLoop none k nds = (nds, .ok (stripData nds)) := by
  induction nds generalizing k with
  | nil => rfl
  | cons nd nds ih =>
    unfold nlCopyLoop
    rw [show nd.copyNode ((none : Option ℕ) == some k) = (nd, .ok { nd with data := [] }) from rfl]
    dsimp only
    rw [ih]
    rfl

/-- **C39 (nonlinear copy).** `copy_sample()` that is not interrupted leaves the process as it was and returns a process with the same parameters whose nodes hold no data. -/
theorem C39_nonlinear_copy (P : NLProc) : nlCopySample none P = (P, .ok { P with nodes := P.nodes.map fun nd => { nd with data := [] } }) := by
  unfold nlCopySample
  rw [copyLoop_none]
  rfl

theorem copyLoop_crash (j k : ℕ) (nds : List NLNode) (h : j < nds.length) :
    nlCopyLoop (some (k + j)) k nds = (nds.modify j fun nd => { nd with data := [] }, .error .exception) := by
  induction nds generalizing k j with
  | nil => simp at h
  | cons nd nds ih =>
    unfold nlCopyLoop
    cases j with
    | zero =>
      have : (some (k + 0) == some k) = true := by simp
      rw [this]
      rfl
    | succ j =>
      have : (some (k + (j + 1)) == some k) = false := by simp
      rw [this]
      have := ih j (k + 1) (by simpa using h)
      rw [show k + 1 + j = k + (j + 1) by omega] at this
      show (match nlCopyLoop _ (k + 1) nds with
        | (nds', .error e) => (nd :: nds', Except.error e)
        | (nds', .ok cs) => (nd :: nds', Except.ok ({ nd with data := [] } :: cs))) = _
      rw [this]
      rfl

/-- **C39 (nonlinear copy, violated).** Interrupted while node `k` is being copied, that node has lost its data and the others have not, so that the nodes no longer hold the same data sets; interrupted while the object is copied, all
nodes have lost their data. -/
theorem C39_nonlinear_copy_interrupted_violated (P : NLProc) :
    (∀ k, k < P.nodes.length → (nlCopySample (some k) P).1.nodes = P.nodes.modify k fun nd => { nd with data := [] }) ∧
    (∀ nd ∈ (nlCopySample (some P.nodes.length) P).1.nodes, nd.data = []) := by
  constructor
  · intro k h
    unfold nlCopySample
    have := copyLoop_crash k 0 P.nodes h
    rw [zero_add] at this
    rw [this]
  · have : ∀ (k : ℕ) (nds : List NLNode), nlCopyLoop (some (k + nds.length)) k nds = (nds, .ok (stripData nds)) := by
      intro k nds
      induction nds generalizing k with
      | nil => rfl
      | cons nd nds ih =>
        unfold nlCopyLoop
        have : (some (k + (nd :: nds).length) == some k) = false := by simp
        rw [this]
        have := ih (k + 1)
        rw [show k + 1 + nds.length = k + (nd :: nds).length by simp; omega] at this
        rw [show nd.copyNode false = (nd, .ok { nd with data := [] }) from rfl]
        dsimp only
        rw [this]
        rfl
    unfold nlCopySample
    have := this 0 P.nodes
    rw [zero_add] at this
    rw [this]
    dsimp only
    rw [if_pos rfl]
    intro nd hnd
    obtain ⟨nd', _, rfl⟩ := List.mem_map.1 hnd
    rfl

/-! ### C44 -/

/-- invariant of histories -/
structure NLInv (P0 P : NLProc) (l : List NLSet) : Prop where
  K : P.K = P0.K
  B : P.B = P0.B
  L : P.L = P0.L
  basis : P.basis = P0.basis
  uni : NLUniform P
  step : NLInStep P l

theorem mapNodes_data {f : NLNode → Except PyErr NLNode} (hf : ∀ nd nd', f nd = .ok nd' → nd'.data = nd.data ∧ nd'.K = nd.K ∧ nd'.B = nd.B) :
    ∀ (nds nds' : List NLNode), nlMapNodes f nds = .ok nds' →
      nds'.length = nds.length ∧ ∀ i (h : i < nds.length) (h' : i < nds'.length), nds'[i].data = nds[i].data ∧ nds'[i].K = nds[i].K ∧ nds'[i].B = nds[i].B
  | [], nds', h => by
    unfold nlMapNodes at h
    cases h
    exact ⟨rfl, fun i h => by simp at h⟩
  | nd :: nds, nds', h => by
    unfold nlMapNodes at h
    cases h1 : f nd with
    | error e => rw [h1] at h; cases h
    | ok nd' =>
      rw [h1] at h
      dsimp only at h
      cases h2 : nlMapNodes f nds with
      | error e => rw [h2] at h; cases h
      | ok nds2 =>
        rw [h2] at h
        cases h
        obtain ⟨q1, q2⟩ := mapNodes_data hf nds nds2 h2
        refine ⟨by simp [q1], fun i hi hi' => ?_⟩
        cases i with
        | zero => exact hf nd nd' h1
        | succ i => simpa using q2 i (by simpa using hi) (by simpa using hi')

theorem mapNodes_inv {P0 P : NLProc} {l : List NLSet} (hI : NLInv P0 P l) {f : NLNode → Except PyErr NLNode} (hf : ∀ nd nd', f nd = .ok nd' → nd'.data = nd.data ∧ nd'.K = nd.K ∧ nd'.B = nd.B)
    {nds : List NLNode} (h : nlMapNodes f P.nodes = .ok nds) : NLInv P0 { P with nodes := nds } l := by
  obtain ⟨h1, h2⟩ := mapNodes_data hf _ _ h
  refine ⟨hI.K, hI.B, hI.L, hI.basis, ?_, ?_, ?_⟩
  · intro nd hnd
    obtain ⟨i, hi, rfl⟩ := List.getElem_of_mem hnd
    dsimp only at hi ⊢
    obtain ⟨_, q1, q2⟩ := h2 i (by omega) hi
    rw [q1, q2]
    exact hI.uni _ (List.getElem_mem _)
  · dsimp only
    rw [h1]; exact hI.step.1
  · intro k hk
    dsimp only at hk ⊢
    rw [(h2 k (by omega) hk).1]
    exact hI.step.2 k (by omega)

theorem init_keeps (nd nd' : NLNode) (h : nd.initBackground = .ok nd') : nd'.data = nd.data ∧ nd'.K = nd.K ∧ nd'.B = nd.B := by
  unfold NLNode.initBackground at h
  dsimp only at h
  split at h
  · split at h
    · cases h
    · split at h
      · cases h
      · cases h; exact ⟨rfl, rfl, rfl⟩
  · cases h; exact ⟨rfl, rfl, rfl⟩

theorem fit_keeps (opt : NLNode → Vec ℝ) (nd nd' : NLNode) (h : nd.fit opt = .ok nd') : nd'.data = nd.data ∧ nd'.K = nd.K ∧ nd'.B = nd.B := by
  unfold NLNode.fit at h
  split at h
  · split at h
    · cases h
    · rename_i nd1 h1
      cases h
      exact init_keeps nd nd1 h1
  · cases h; exact ⟨rfl, rfl, rfl⟩

theorem inStep_length {P : NLProc} {l : List NLSet} (h : NLInStep P l) : ∀ nd ∈ P.nodes, nd.data.length = l.length := by
  intro nd hnd
  obtain ⟨k, hk, rfl⟩ := List.getElem_of_mem hnd
  rw [h.2 k hk, List.length_map]

theorem nlCall_inv {P0 P : NLProc} {l : List NLSet} (hL : 0 < P0.L) (hB : 0 < P0.B) (hI : NLInv P0 P l) (op : NLOp) :
    ∃ l', NLEffect P0.K P0.B P0.L P0.basis op l l' ∧ NLInv P0 (nlCall op P) l' := by
  have hL' : 0 < P.L := hI.L ▸ hL
  have hB' : 0 < P.B := hI.B ▸ hB
  cases op with
  | addData a =>
    by_cases hv : NLValid P.K P.B a
    · obtain ⟨D, hD, hS, h⟩ := nlAddData_valid hL' hB' hI.uni hv
      have hadd := h P.nodes rfl hI.uni
      rw [show ({ P with nodes := P.nodes } : NLProc) = P from rfl] at hadd
      refine ⟨l ++ [D], .add (by rw [← hI.K, ← hI.B]; exact hv) (by rw [← hI.K, ← hI.B, ← hI.L, ← hI.basis]; exact hD), ?_⟩
      unfold nlCall
      dsimp only
      rw [hadd]
      refine ⟨hI.K, hI.B, hI.L, hI.basis, ?_, ?_, ?_⟩
      · intro nd hnd
        obtain ⟨i, hi, rfl⟩ := List.mem_mapIdx.1 hnd
        exact hI.uni P.nodes[i] (List.getElem_mem hi)
      · simpa [appendAll] using hI.step.1
      · intro k hk
        have hk' : k < P.nodes.length := by simpa [appendAll] using hk
        simp only [appendAll, List.getElem_mapIdx]
        rw [hI.step.2 k hk', List.map_append]
        simp only [List.map_cons, List.map_nil, NLSet.col, hS, zero_add]
    · obtain ⟨e, he⟩ := nlAddData_invalid hL' hB' hI.step.1 hI.uni hv
      refine ⟨l, .addRejected (by rw [← hI.K, ← hI.B]; exact hv), ?_⟩
      unfold nlCall
      dsimp only
      rw [he]
      exact hI
  | removeData i =>
    have hn := inStep_length hI.step
    cases hp : pyIdx l.length i with
    | none =>
      refine ⟨l, .removeRejected (pyIdx_none hp), ?_⟩
      unfold nlCall nlRemoveData
      dsimp only
      rw [removeLoop_none hp P.nodes hn]
      exact hI
    | some j =>
      refine ⟨l.eraseIdx j, .remove (pyIdx_spec hp), ?_⟩
      unfold nlCall nlRemoveData
      dsimp only
      rw [removeLoop_some hp P.nodes hn]
      refine ⟨hI.K, hI.B, hI.L, hI.basis, ?_, ?_, ?_⟩
      · intro nd hnd
        obtain ⟨nd', h', rfl⟩ := List.mem_map.1 hnd
        exact hI.uni nd' h'
      · simpa using hI.step.1
      · intro k hk
        have hk' : k < P.nodes.length := by simpa using hk
        simp only [List.getElem_map]
        rw [hI.step.2 k hk', List.eraseIdx_map]
  | heldout a =>
    refine ⟨l, .heldout, ?_⟩
    unfold nlCall
    dsimp only
    rw [(C39_nonlinear_heldout hL' hB' hI.step.1 hI.uni (inStep_length hI.step) a).1]
    exact hI
  | copySample =>
    refine ⟨l, .copySample, ?_⟩
    unfold nlCall
    dsimp only
    rw [C39_nonlinear_copy]
    exact hI
  | init =>
    refine ⟨l, .init, ?_⟩
    unfold nlCall nlInit
    dsimp only
    cases h : nlMapNodes NLNode.initBackground P.nodes with
    | error e => exact hI
    | ok nds => exact mapNodes_inv hI init_keeps h
  | fit opt =>
    refine ⟨l, .fit, ?_⟩
    unfold nlCall nlFit
    dsimp only
    cases h : nlMapNodes (NLNode.fit opt) P.nodes with
    | error e => exact hI
    | ok nds => exact mapNodes_inv hI (fit_keeps opt) h
  | logLik i => exact ⟨l, .logLik, hI⟩

theorem nlRun_inv {P0 : NLProc} (hL : 0 < P0.L) (hB : 0 < P0.B) (ops : List NLOp) : ∀ {P : NLProc} {l : List NLSet}, NLInv P0 P l →
    ∃ l', NLEffects P0.K P0.B P0.L P0.basis ops l l' ∧ NLInv P0 (nlRun ops P) l' := by
  induction ops with
  | nil => intro P l hI; exact ⟨l, .nil, hI⟩
  | cons op ops ih =>
    intro P l hI
    obtain ⟨l1, h1, h2⟩ := nlCall_inv hL hB hI op
    obtain ⟨l2, h3, h4⟩ := ih h2
    exact ⟨l2, .cons h1 h3, h4⟩

/-- **C44.** Start from a new process of any class with a nonempty basis and make any sequence of `add_data`, `remove_data`, `heldout_log_likelihood`, `copy_sample`, `initialize_to_background_rate`, `fit_with_bfgs` and `log_likelihood`
calls, accepted or rejected. Then the data held by the nodes are those of one list of data sets, node `k` with column `k` of the counts; and that list is the one the user expects: accepted data sets in order of addition, minus those
removed. -/
theorem C44_nodes_in_step (kind : NLKind) {K B L : ℕ} (hL : 0 < L) (hB : 0 < B) (dt : ℝ) (basis : Mat ℝ) (sigma lmbda : Option ℝ) (ops : List NLOp) :
    ∃ l, NLEffects K B L basis ops [] l ∧ NLInStep (nlRun ops (nlNew kind K B L dt basis sigma lmbda)) l := by
  have h0 : NLInv (nlNew kind K B L dt basis sigma lmbda) (nlNew kind K B L dt basis sigma lmbda) [] := by
    refine ⟨rfl, rfl, rfl, rfl, ?_, ?_, ?_⟩
    · intro nd hnd
      obtain ⟨i, _, rfl⟩ := List.mem_map.1 hnd
      exact ⟨rfl, rfl⟩
    · simp [nlNew]
    · intro k hk
      simp [nlNew, nlNode]
  obtain ⟨l, h1, h2⟩ := nlRun_inv (P0 := nlNew kind K B L dt basis sigma lmbda) hL hB ops h0
  exact ⟨l, h1, h2.step⟩

/-- **C44 (violated by interruption).** An `add_data` call interrupted between two nodes (for example by `KeyboardInterrupt`) leaves the nodes out of step: with two processes the first has the data set, the second does not. -/
theorem C44_interrupted_add_violated (kind : NLKind) {B L : ℕ} (hL : 0 < L) (hB : 0 < B) (dt : ℝ) (basis : Mat ℝ) (a : NLArgs) (hv : NLValid 2 B a) :
    (nlAddData (some 1) a (nlNew kind 2 B L dt basis)).1.nodes.map (fun nd => nd.data.length) = [1, 0] := by
  obtain ⟨h1, h2, h3, h4, h5, h6⟩ := hv
  obtain ⟨r, c, F, e1, e2, e3⟩ := nlFilter_ok (P := nlNew kind 2 B L dt basis) (a := a) hL hB h2 (show 0 < 2 by decide)
  have hrc : r = a.T ∧ c = 1 + 2 * B := by
    cases hF : a.F with
    | none => exact ⟨(e3 hF).1, (e3 hF).2.1⟩
    | some q =>
      obtain ⟨r', c', F'⟩ := q
      obtain ⟨q1, q2, q3⟩ := e2 r' c' F' hF
      obtain ⟨w1, w2⟩ := h6 r' c' F' hF
      exact ⟨q1.trans w1, q2.trans w2⟩
  unfold nlAddData
  rw [if_neg (by simp [h1, nlNew]), if_neg (by omega), if_neg (by rw [not_not, h1]; exact ⟨h4, h5⟩), e1]
  dsimp only
  obtain ⟨rfl, rfl⟩ := hrc
  have : (nlNew kind 2 B L dt basis).nodes = [nlNode kind 2 B dt none (some 0), nlNode kind 2 B dt none (some 0)] := by
    simp [nlNew, List.range_succ]
  rw [this]
  unfold nlAddLoop
  rw [if_neg (by simp)]
  have h1 : (nlNode kind 2 B dt none (some 0)).addData a.T (1 + 2 * B) F a.T (fun t => (a.S t 0).toNat) = .ok { nlNode kind 2 B dt none (some 0) with data := [⟨a.T, fun t => (a.S t 0).toNat, F⟩] } := by
    unfold NLNode.addData nlNode
    dsimp only
    rw [if_neg (by simp), if_neg (by omega), if_neg (by simp)]
    rfl
  rw [h1]
  dsimp only
  unfold nlAddLoop
  rw [if_pos rfl]
  rfl

/-- arguments that `add_data` accepts (two processes, three bins) and arguments it rejects (a bias column is missing) -/
def demoNLArgs : NLArgs := ⟨3, 2, true, fun t k => if t = k then 1 else 0, none⟩

example : NLValid 2 1 demoNLArgs ∧ ¬ NLValid 2 1 { demoNLArgs with F := some (3, 2, fun _ _ => 0) } := by
  refine ⟨⟨rfl, by decide, by decide, ?_, rfl, (fun _ _ _ h => by cases h)⟩, ?_⟩
  · intro t _ k _
    unfold demoNLArgs
    dsimp only
    split <;> norm_num
  · intro h
    have := (h.2.2.2.2.2 3 2 _ rfl).2
    omega

/-! ### C38 -/

/-- **C38 (nonlinear models).** `G` is computed from a copy, so reading it changes nothing (it returns a value only). When no summed weight is zero it is defined, its entries over the basis sum to one, and multiplying by `W` gives the
weights back. -/
theorem C38_nonlinear_G {P : NLProc} (h0 : ∀ k1 < P.K, ∀ k2 < P.K, P.getW k1 k2 ≠ 0) :
    ∃ G, P.getG = .ok G ∧ ∀ k1 < P.K, ∀ k2 < P.K, ∑ b ∈ range P.B, G k1 k2 b = 1 ∧ ∀ b < P.B, P.getW k1 k2 * G k1 k2 b = P.fullW k2 (1 + k1 * P.B + b) := by
  have hsum : ∀ k1 < P.K, ∀ k2 < P.K, ∑ b ∈ range P.B, P.fullW k2 (1 + k1 * P.B + b) / (∑ b ∈ range P.B, P.fullW k2 (1 + k1 * P.B + b)) = 1 := by
    intro k1 h1 k2 h2
    rw [← Finset.sum_div]
    exact div_self (h0 k1 h1 k2 h2)
  unfold NLProc.getG
  dsimp only
  rw [if_neg]
  · refine ⟨_, rfl, fun k1 h1 k2 h2 => ?_⟩
    have e : ∀ b, (if ∑ b ∈ range P.B, P.fullW k2 (1 + k1 * P.B + b) / (∑ b ∈ range P.B, P.fullW k2 (1 + k1 * P.B + b)) < 1e-2 then 1 / (P.B : ℝ) else P.fullW k2 (1 + k1 * P.B + b) / (∑ b ∈ range P.B, P.fullW k2 (1 + k1 * P.B + b)))
        = P.fullW k2 (1 + k1 * P.B + b) / (∑ b ∈ range P.B, P.fullW k2 (1 + k1 * P.B + b)) := fun b => by rw [hsum k1 h1 k2 h2, if_neg (by norm_num)]
    simp only [e]
    refine ⟨hsum k1 h1 k2 h2, fun b _ => ?_⟩
    exact mul_div_cancel₀ _ (h0 k1 h1 k2 h2)
  · rintro ⟨i, hi, j, hj, h⟩
    exact h0 j hj i hi h

/-- **C38 (nonlinear, violated).** If some summed weight is zero, as in every new process and in every fitted homogeneous process, `G` is not a number: the code meant to replace such rows by `1/B` never runs. -/
theorem C38_nonlinear_zero_weight_violated {P : NLProc} {k1 k2 : ℕ} (h1 : k1 < P.K) (h2 : k2 < P.K) (h0 : P.getW k1 k2 = 0) : P.getG = .error .silentNan := by
  unfold NLProc.getG
  dsimp only
  rw [if_pos ⟨k2, h2, k1, h1, h0⟩]

example : (nlNew .exp 2 1 3 1 (fun _ _ => 1)).getW 0 1 = 0 := by
  simp [NLProc.getW, NLProc.fullW, nlNew, nlNode]

/-! ### C74 -/

/-- the process with other weights: row `k` of `w` at node `k` -/
def NLProc.withW (P : NLProc) (w : Mat ℝ) : NLProc := { P with nodes := P.nodes.mapIdx fun k nd => { nd with w := w k } }

/-- the penalties of all nodes for the weight matrix `w` -/
noncomputable def procPenalty (P : NLProc) (l : ℝ) (w : Mat ℝ) : ℝ := ∑ k : Fin P.nodes.length, nlPenalty (1 + P.nodes[k.1].K * P.nodes[k.1].B) P.nodes[k.1].sigma l (w k.1)

theorem nlLogLik_ok {P : NLProc} (h : ∀ nd ∈ P.nodes, RatesPos nd nd.w) : nlLogLik none P = .ok (∑ k : Fin P.nodes.length, nodeLL P.nodes[k.1] P.nodes[k.1].w) := by
  unfold nlLogLik
  rw [forListE_ok_list P.nodes (nlLLStep none) (fun nd s => s + nodeLL nd nd.w)]
  · rw [foldl_add_list, zero_add, ← Fin.sum_univ_fun_getElem]
  · intro nd hnd s
    unfold nlLLStep
    rw [nodeLogLik_ok (h nd hnd)]

theorem nlLogLik_ok_iff {P : NLProc} : (∃ v, nlLogLik none P = .ok v) ↔ ∀ nd ∈ P.nodes, RatesPos nd nd.w := by
  constructor
  · rintro ⟨v, hv⟩
    by_contra hne
    push Not at hne
    obtain ⟨nd, hnd, hr⟩ := hne
    unfold nlLogLik at hv
    rw [forListE_error (e := .silentNan)] at hv
    · cases hv
    · intro nd' _ s
      unfold nlLLStep
      rcases nodeLogLik_cases nd' with ⟨v', hv'⟩ | hv'
      · rw [hv']; exact .inl ⟨_, rfl⟩
      · rw [hv']; exact .inr rfl
    · refine ⟨nd, hnd, fun s => ?_⟩
      unfold nlLLStep
      rw [nodeLogLik_error hr]
  · intro h
    exact ⟨_, nlLogLik_ok h⟩

theorem mapNodes_fit {opt : NLNode → Vec ℝ} : ∀ (nds : List NLNode), (∀ nd ∈ nds, nd.kind ≠ .homog) → nlMapNodes (NLNode.fit opt) nds = .ok (nds.map fun nd => { nd with w := opt nd })
  | [], _ => rfl
  | nd :: nds, h => by
    unfold nlMapNodes
    have h1 : nd.fit opt = .ok { nd with w := opt nd } := by
      unfold NLNode.fit
      have := h nd (by simp)
      cases hk : nd.kind with
      | homog => exact absurd hk this
      | linear => rfl
      | relu => rfl
      | exp => rfl
    rw [h1]
    dsimp only
    rw [mapNodes_fit nds fun nd hnd => h nd (List.mem_cons_of_mem _ hnd)]
    rfl

/-- **C74.** Let every node have at least one event, a nonzero `sigma` and a finite `lmbda`, and suppose the optimiser keeps its contract: for each node it returns weights within the box it was given at which the objective is finite and
no larger than at any other weights in the box. Then `fit_with_bfgs` succeeds, keeps the data, and the fitted process has a finite log likelihood; and for every other choice of weights within the boxes whose log likelihood is
finite, log likelihood minus penalties is not larger. -/
theorem C74_fit_joint_maximum {P : NLProc} {l : ℝ} (opt : NLNode → Vec ℝ) (hk : ∀ nd ∈ P.nodes, nd.kind ≠ .homog) (hN : ∀ nd ∈ P.nodes, 0 < nlEvents nd.data) (hs : ∀ nd ∈ P.nodes, nd.sigma ≠ some 0)
    (hl : ∀ nd ∈ P.nodes, nd.lmbda = some l)
    (hopt : ∀ nd ∈ P.nodes, nd.inBox (opt nd) ∧ ∃ v, nd.objective (opt nd) = .ok v ∧ ∀ w v', nd.inBox w → nd.objective w = .ok v' → v ≤ v') :
    ∃ P', nlFit opt P = .ok P' ∧ P' = P.withW P'.fullW ∧ ∃ v, nlLogLik none P' = .ok v ∧
      ∀ w v', (∀ k (h : k < P.nodes.length), P.nodes[k].inBox (w k)) → nlLogLik none (P.withW w) = .ok v' → v' - procPenalty P l w ≤ v - procPenalty P l P'.fullW := by
  have hfit : nlFit opt P = .ok { P with nodes := P.nodes.map fun nd => { nd with w := opt nd } } := by
    unfold nlFit
    rw [mapNodes_fit P.nodes hk]
  have hfull : ∀ k (h : k < P.nodes.length), NLProc.fullW { P with nodes := P.nodes.map fun nd => { nd with w := opt nd } } k = opt P.nodes[k] := by
    intro k h
    funext c
    unfold NLProc.fullW
    dsimp only
    rw [List.getElem?_map, List.getElem?_eq_getElem h]
    rfl
  have hposOpt : ∀ nd ∈ P.nodes, RatesPos nd (opt nd) := by
    intro nd hnd
    by_contra hne
    obtain ⟨_, v, hv, _⟩ := hopt nd hnd
    rw [objective_error hne] at hv
    cases hv
  have hok' : ∀ nd ∈ (P.nodes.map fun nd => ({ nd with w := opt nd } : NLNode)), RatesPos nd nd.w := by
    intro nd hnd
    obtain ⟨nd', h', rfl⟩ := List.mem_map.1 hnd
    exact hposOpt nd' h'
  refine ⟨_, hfit, ?_, _, nlLogLik_ok hok', ?_⟩
  · unfold NLProc.withW
    congr 1
    apply List.ext_getElem
    · simp
    · intro i h1 h2
      have hi : i < P.nodes.length := by simpa using h1
      rw [List.getElem_mapIdx, hfull i hi, List.getElem_map]
  · intro w v' hbox hv'
    have hposW : ∀ nd ∈ (P.withW w).nodes, RatesPos nd nd.w := nlLogLik_ok_iff.1 ⟨v', hv'⟩
    rw [nlLogLik_ok hposW] at hv'
    have hv' := (Except.ok.inj hv').symm
    have e1 : ∀ (l1 : List NLNode) (f : NLNode → ℝ), ∑ k : Fin l1.length, f l1[k.1] = (l1.map f).sum := fun l1 f => Fin.sum_univ_fun_getElem l1 f
    rw [e1 _ (fun nd => nodeLL nd nd.w), List.map_map, ← Fin.sum_univ_fun_getElem]
    rw [e1 _ (fun nd => nodeLL nd nd.w)] at hv'
    have e2 : ((P.withW w).nodes.map fun nd => nodeLL nd nd.w) = List.ofFn fun k : Fin P.nodes.length => nodeLL P.nodes[k.1] (w k.1) := by
      unfold NLProc.withW
      apply List.ext_getElem
      · simp
      · intro i h1 h2
        simp only [List.getElem_map, List.getElem_mapIdx, List.getElem_ofFn]
        rfl
    rw [e2, List.sum_ofFn] at hv'
    rw [hv']
    unfold procPenalty
    rw [← Finset.sum_sub_distrib, ← Finset.sum_sub_distrib]
    apply Finset.sum_le_sum
    intro k _
    rw [hfull k.1 k.2]
    have hm := List.getElem_mem k.2
    have hposk : RatesPos P.nodes[k.1] (w k.1) := by
      have := hposW { P.nodes[k.1] with w := w k.1 } (by
        unfold NLProc.withW
        exact List.mem_mapIdx.2 ⟨k.1, k.2, rfl⟩)
      exact this
    obtain ⟨_, v, hv, hmin⟩ := hopt _ hm
    have hle := hmin (w k.1) _ (hbox k.1 k.2) (objective_ok (hN _ hm) (hs _ hm) (hl _ hm) hposk)
    rw [objective_ok (hN _ hm) (hs _ hm) (hl _ hm) (hposOpt _ hm)] at hv
    rw [← Except.ok.inj hv] at hle
    have hN' : (0:ℝ) < nlEvents P.nodes[k.1].data := by exact_mod_cast hN _ hm
    rw [← add_div, ← add_div, div_le_div_iff_of_pos_right hN'] at hle
    have e3 : nodeLL { P.nodes[k.1] with w := opt P.nodes[k.1] } (opt P.nodes[k.1]) = nodeLL P.nodes[k.1] (opt P.nodes[k.1]) := rfl
    show _ ≤ nodeLL { P.nodes[k.1] with w := opt P.nodes[k.1] } (opt P.nodes[k.1]) - _
    rw [e3]
    linarith

/-- an exponential node with a bias weight only and one data set: two bins, one event -/
noncomputable def demoExpNode : NLNode := { nlNode .exp 1 0 1 none (some 0) with data := [demoNL] }

/-- the hypotheses of `C74_fit_joint_maximum` are met by a process with this node and the optimiser that returns the logarithm of the mean rate -/
example : ∃ (P : NLProc) (opt : NLNode → Vec ℝ), (∀ nd ∈ P.nodes, nd.kind ≠ .homog) ∧ (∀ nd ∈ P.nodes, 0 < nlEvents nd.data) ∧ (∀ nd ∈ P.nodes, nd.sigma ≠ some 0) ∧ (∀ nd ∈ P.nodes, nd.lmbda = some 0) ∧
    (∀ nd ∈ P.nodes, nd.inBox (opt nd) ∧ ∃ v, nd.objective (opt nd) = .ok v ∧ ∀ w v', nd.inBox w → nd.objective w = .ok v' → v ≤ v') ∧ P.nodes ≠ [] := by
  have hN : 0 < nlEvents demoExpNode.data := by unfold nlEvents demoExpNode demoNL; simp
  have hpos : ∀ w, RatesPos demoExpNode w := fun w D _ t _ => Real.exp_pos _
  have hval : ∀ w : Vec ℝ, demoExpNode.objective w = .ok (-(1 * Real.log (Real.exp (w 0)) - Real.exp (w 0) * 2)) := by
    intro w
    rw [objective_ok hN (by unfold demoExpNode nlNode; simp) (l := 0) rfl (hpos w)]
    congr 1
    simp [nodeLL, nlLL, nlEvents, nlPenalty, nlRidge, demoExpNode, nlNode, predictor, NLKind.link, demoNL, Finset.sum_range_succ]
    ring
  refine ⟨{ nlNew .exp 1 0 1 1 (fun _ _ => 0) with nodes := [demoExpNode] }, fun _ _ => Real.log (1 / 2), ?_, ?_, ?_, ?_, ?_, by simp⟩
  · intro nd hnd; rw [List.mem_singleton.1 hnd]; unfold demoExpNode nlNode; simp
  · intro nd hnd; rw [List.mem_singleton.1 hnd]; exact hN
  · intro nd hnd; rw [List.mem_singleton.1 hnd]; unfold demoExpNode nlNode; simp
  · intro nd hnd; rw [List.mem_singleton.1 hnd]; rfl
  · intro nd hnd
    rw [List.mem_singleton.1 hnd]
    refine ⟨(fun h => by cases h), _, hval _, fun w v' _ hv' => ?_⟩
    rw [hval] at hv'
    rw [← Except.ok.inj hv']
    have := (poisson_opt (N := 1) (T := 2) (r := Real.exp (w 0)) (by norm_num) (by norm_num) (Real.exp_pos _)).1
    dsimp only
    rw [Real.exp_log (by norm_num)]
    linarith

end PyHawkes
