import Verif.Props.NLProc

/-! # C44: the settings given to a nonlinear process reach every node and never change -/
set_option linter.unusedSectionVars false
set_option linter.unusedVariables false

namespace PyHawkes
open Finset

/-- the settings of a node -/
structure NodeSettings (kind : NLKind) (K B : ℕ) (dt : ℝ) (sigma lmbda : Option ℝ) (nd : NLNode) : Prop where
  kind : nd.kind = kind
  K : nd.K = K
  B : nd.B = B
  dt : nd.dt = dt
  sigma : nd.sigma = sigma
  lmbda : nd.lmbda = lmbda

/-- the settings of a process -/
structure ProcSettings (kd : NLKind) (k b l : ℕ) (d : ℝ) (bs : Mat ℝ) (sg lm : Option ℝ) (P : NLProc) : Prop where
  kind : P.kind = kd
  K : P.K = k
  B : P.B = b
  L : P.L = l
  dt : P.dt = d
  basis : P.basis = bs
  count : P.nodes.length = k
  nodes : ∀ nd ∈ P.nodes, NodeSettings kd k b d sg lm nd

section
variable {kind : NLKind} {K B L : ℕ} {dt : ℝ} {basis : Mat ℝ} {sigma lmbda : Option ℝ}

local notation "NS" => NodeSettings kind K B dt sigma lmbda

theorem addLoop_settings (crash : Option ℕ) (rows cols : ℕ) (F : Mat ℝ) (T : ℕ) (S : Mat ℤ) : ∀ (k : ℕ) (nds : List NLNode), (∀ nd ∈ nds, NS nd) →
    (nlAddLoop crash rows cols F T S k nds).1.length = nds.length ∧ ∀ nd ∈ (nlAddLoop crash rows cols F T S k nds).1, NS nd
  | _, [], _ => ⟨rfl, fun nd h => by simp [nlAddLoop] at h⟩
  | k, nd :: nds, h => by
    unfold nlAddLoop
    by_cases hc : crash = some k
    · rw [if_pos hc]; exact ⟨rfl, h⟩
    · rw [if_neg hc]
      cases ha : nd.addData rows cols F T (fun t => (S t k).toNat) with
      | error e => exact ⟨rfl, h⟩
      | ok nd' =>
        obtain ⟨i1, i2⟩ := addLoop_settings crash rows cols F T S (k + 1) nds fun x hx => h x (List.mem_cons_of_mem _ hx)
        have g := h nd List.mem_cons_self
        refine ⟨by simp [i1], fun x hx => ?_⟩
        rcases List.mem_cons.1 hx with rfl | hx
        · unfold NLNode.addData at ha
          split_ifs at ha
          obtain rfl := Except.ok.inj ha
          exact ⟨g.kind, g.K, g.B, g.dt, g.sigma, g.lmbda⟩
        · exact i2 x hx

theorem removeLoop_settings (index : ℤ) : ∀ nds : List NLNode, (∀ nd ∈ nds, NS nd) →
    (nlRemoveLoop index nds).1.length = nds.length ∧ ∀ nd ∈ (nlRemoveLoop index nds).1, NS nd
  | [], _ => ⟨rfl, fun nd h => by simp [nlRemoveLoop] at h⟩
  | nd :: nds, h => by
    unfold nlRemoveLoop
    cases hp : pyIdx nd.data.length index with
    | none => exact ⟨rfl, h⟩
    | some j =>
      obtain ⟨i1, i2⟩ := removeLoop_settings index nds fun x hx => h x (List.mem_cons_of_mem _ hx)
      have g := h nd List.mem_cons_self
      refine ⟨by simp [i1], fun x hx => ?_⟩
      rcases List.mem_cons.1 hx with rfl | hx
      · exact ⟨g.kind, g.K, g.B, g.dt, g.sigma, g.lmbda⟩
      · exact i2 x hx

theorem mapNodes_settings {f : NLNode → Except PyErr NLNode} (hf : ∀ nd nd', f nd = .ok nd' → NS nd → NS nd') : ∀ (nds nds' : List NLNode), nlMapNodes f nds = .ok nds' → (∀ nd ∈ nds, NS nd) →
    nds'.length = nds.length ∧ ∀ nd ∈ nds', NS nd
  | [], nds', h, _ => by
    unfold nlMapNodes at h
    obtain rfl := Except.ok.inj h
    exact ⟨rfl, fun nd h => by simp at h⟩
  | nd :: nds, nds', h, g => by
    unfold nlMapNodes at h
    split at h
    · cases h
    rename_i nd' h1
    split at h
    · cases h
    rename_i ns h2
    obtain rfl := Except.ok.inj h
    obtain ⟨i1, i2⟩ := mapNodes_settings hf nds ns h2 fun x hx => g x (List.mem_cons_of_mem _ hx)
    refine ⟨by simp [i1], fun x hx => ?_⟩
    rcases List.mem_cons.1 hx with rfl | hx
    · exact hf nd _ h1 (g nd List.mem_cons_self)
    · exact i2 x hx

theorem init_settings (nd nd' : NLNode) (h : nd.initBackground = .ok nd') (g : NS nd) : NS nd' := by
  unfold NLNode.initBackground at h
  dsimp only at h
  split_ifs at h with h1 h2
  · split at h
    · cases h
    · obtain rfl := Except.ok.inj h
      exact ⟨g.kind, g.K, g.B, g.dt, g.sigma, g.lmbda⟩
  · obtain rfl := Except.ok.inj h
    exact ⟨g.kind, g.K, g.B, g.dt, g.sigma, g.lmbda⟩

theorem fit_settings (opt : NLNode → Vec ℝ) (nd nd' : NLNode) (h : nd.fit opt = .ok nd') (g : NS nd) : NS nd' := by
  unfold NLNode.fit at h
  split at h
  · split at h
    · cases h
    · rename_i n1 h1
      obtain rfl := Except.ok.inj h
      have g' := init_settings nd n1 h1 g
      exact ⟨g'.kind, g'.K, g'.B, g'.dt, g'.sigma, g'.lmbda⟩
  · obtain rfl := Except.ok.inj h
    exact ⟨g.kind, g.K, g.B, g.dt, g.sigma, g.lmbda⟩

theorem copyLoop_settings (crash : Option ℕ) : ∀ (k : ℕ) (nds : List NLNode), (∀ nd ∈ nds, NS nd) →
    (nlCopyLoop crash k nds).1.length = nds.length ∧ (∀ nd ∈ (nlCopyLoop crash k nds).1, NS nd) ∧
      ∀ cs, (nlCopyLoop crash k nds).2 = .ok cs → cs.length = nds.length ∧ ∀ nd ∈ cs, NS nd
  | _, [], _ => ⟨rfl, fun nd h => by simp [nlCopyLoop] at h, fun cs h => by obtain rfl := Except.ok.inj h; exact ⟨rfl, fun nd h => by simp at h⟩⟩
  | k, nd :: nds, h => by
    have g := h nd List.mem_cons_self
    obtain ⟨i1, i2, i3⟩ := copyLoop_settings crash (k + 1) nds fun x hx => h x (List.mem_cons_of_mem _ hx)
    have gd : ∀ l, NS { nd with data := l } := fun l => ⟨g.kind, g.K, g.B, g.dt, g.sigma, g.lmbda⟩
    unfold nlCopyLoop NLNode.copyNode
    by_cases hc : (crash == some k) = true
    · simp only [hc, if_true]
      refine ⟨rfl, fun x hx => ?_, fun cs h => nomatch h⟩
      rcases List.mem_cons.1 hx with rfl | hx
      · exact gd []
      · exact h x (List.mem_cons_of_mem _ hx)
    · simp only [if_neg hc]
      rcases hr : nlCopyLoop crash (k + 1) nds with ⟨ns, e | cs⟩
      · rw [hr] at i1 i2 i3
        refine ⟨by simpa using i1, fun x hx => ?_, fun cs h => nomatch h⟩
        rcases List.mem_cons.1 hx with rfl | hx
        · exact g
        · exact i2 x hx
      · rw [hr] at i1 i2 i3
        obtain ⟨j1, j2⟩ := i3 cs rfl
        refine ⟨by simpa using i1, fun x hx => ?_, fun cs' h' => ?_⟩
        · rcases List.mem_cons.1 hx with rfl | hx
          · exact g
          · exact i2 x hx
        · obtain rfl := Except.ok.inj h'
          refine ⟨by simp [j1], fun x hx => ?_⟩
          rcases List.mem_cons.1 hx with rfl | hx
          · exact gd []
          · exact j2 x hx

local notation "PS" => ProcSettings kind K B L dt basis sigma lmbda

theorem ProcSettings.withNodes {P : NLProc} (h : PS P) {nds : List NLNode} (h1 : nds.length = P.nodes.length) (h2 : ∀ nd ∈ nds, NS nd) : PS { P with nodes := nds } :=
  ⟨h.kind, h.K, h.B, h.L, h.dt, h.basis, h1.trans h.count, h2⟩

theorem addData_settings {P : NLProc} (h : PS P) (crash : Option ℕ) (a : NLArgs) : PS (nlAddData crash a P).1 := by
  unfold nlAddData
  split_ifs
  · exact h
  · exact h
  · cases nlFilter a P with
    | error e => exact h
    | ok q =>
      obtain ⟨i1, i2⟩ := addLoop_settings crash q.1 q.2.1 q.2.2 a.T a.S 0 P.nodes h.nodes
      exact h.withNodes i1 i2
  · exact h

theorem removeData_settings {P : NLProc} (h : PS P) (i : ℤ) : PS (nlRemoveData i P).1 := by
  obtain ⟨i1, i2⟩ := removeLoop_settings i P.nodes h.nodes
  exact h.withNodes i1 i2

theorem heldout_settings {P : NLProc} (h : PS P) (crash : Bool) (a : NLArgs) : PS (nlHeldout crash a P).1 := by
  have h1 := addData_settings h none a
  unfold nlHeldout
  rcases e : nlAddData none a P with ⟨P1, _ | _⟩
  · rw [e] at h1; exact h1
  · rw [e] at h1
    dsimp only
    cases crash with
    | true => exact h1
    | false =>
      simp only [Bool.false_eq_true, if_false]
      split_ifs
      · exact h1
      · have h2 := removeData_settings h1 (-1)
        rcases e2 : nlRemoveData (-1) P1 with ⟨P2, _ | _⟩ <;> (simp only [e2] at h2 ⊢; exact h2)

theorem copySample_settings {P : NLProc} (h : PS P) (crash : Option ℕ) : PS (nlCopySample crash P).1 ∧ ∀ Q, (nlCopySample crash P).2 = .ok Q → PS Q := by
  obtain ⟨i1, i2, i3⟩ := copyLoop_settings crash 0 P.nodes h.nodes
  unfold nlCopySample
  rcases e : nlCopyLoop crash 0 P.nodes with ⟨nds, _ | cs⟩
  · rw [e] at i1 i2
    exact ⟨h.withNodes i1 i2, fun Q h => nomatch h⟩
  · rw [e] at i1 i2 i3
    obtain ⟨j1, j2⟩ := i3 cs rfl
    dsimp only
    split_ifs
    · exact ⟨h.withNodes j1 j2, fun Q h => nomatch h⟩
    · refine ⟨h.withNodes i1 i2, fun Q hQ => ?_⟩
      obtain rfl := Except.ok.inj hQ
      exact h.withNodes j1 j2

theorem call_settings {P : NLProc} (h : PS P) (op : NLOp) : PS (nlCall op P) := by
  cases op with
  | addData a => exact addData_settings h none a
  | removeData i => exact removeData_settings h i
  | heldout a => exact heldout_settings h false a
  | copySample => exact (copySample_settings h none).1
  | init =>
    unfold nlCall nlInit
    dsimp only
    cases e : nlMapNodes NLNode.initBackground P.nodes with
    | error _ => exact h
    | ok nds =>
      obtain ⟨i1, i2⟩ := mapNodes_settings init_settings _ _ e h.nodes
      exact h.withNodes i1 i2
  | fit opt =>
    unfold nlCall nlFit
    dsimp only
    cases e : nlMapNodes (NLNode.fit opt) P.nodes with
    | error _ => exact h
    | ok nds =>
      obtain ⟨i1, i2⟩ := mapNodes_settings (fit_settings opt) _ _ e h.nodes
      exact h.withNodes i1 i2
  | logLik i => exact h

end

/-- **C44 (settings).** The link, sizes, bin width, basis and both penalty parameters given to the constructor are those of the process and of each of its `K` nodes after every history of calls,
and of every copy made of it; a call that is interrupted half way does not change them either. -/
theorem C44_settings_kept (kind : NLKind) (K B L : ℕ) (dt : ℝ) (basis : Mat ℝ) (sigma lmbda : Option ℝ) (ops : List NLOp) :
    let P := nlRun ops (nlNew kind K B L dt basis sigma lmbda)
    ProcSettings kind K B L dt basis sigma lmbda P ∧
    (∀ Q, (nlCopySample none P).2 = .ok Q → ProcSettings kind K B L dt basis sigma lmbda Q) ∧
    (∀ crash a, ProcSettings kind K B L dt basis sigma lmbda (nlAddData crash a P).1) ∧
    (∀ crash a, ProcSettings kind K B L dt basis sigma lmbda (nlHeldout crash a P).1) ∧
    (∀ crash, ProcSettings kind K B L dt basis sigma lmbda (nlCopySample crash P).1) := by
  have h0 : ProcSettings kind K B L dt basis sigma lmbda (nlNew kind K B L dt basis sigma lmbda) := by
    refine ⟨rfl, rfl, rfl, rfl, rfl, rfl, by simp [nlNew], fun nd hnd => ?_⟩
    obtain ⟨i, _, rfl⟩ := List.mem_map.1 hnd
    exact ⟨rfl, rfl, rfl, rfl, rfl, rfl⟩
  have h : ∀ (ops : List NLOp) (P : NLProc), ProcSettings kind K B L dt basis sigma lmbda P → ProcSettings kind K B L dt basis sigma lmbda (nlRun ops P) := by
    intro ops
    induction ops with
    | nil => exact fun P h => h
    | cons op ops ih => exact fun P h => ih _ (call_settings h op)
  have hP := h ops _ h0
  exact ⟨hP, (copySample_settings hP none).2, fun c a => addData_settings hP c a, fun c a => heldout_settings hP c a, fun c => (copySample_settings hP c).1⟩

example : let P := nlRun [.addData demoNLArgs, .copySample] (nlNew .exp 2 1 3 1 (fun _ _ => 1) (some 2) (some 5)); P.nodes.length = 2 ∧ ∀ nd ∈ P.nodes, nd.sigma = some 2 ∧ nd.lmbda = some 5 := by
  obtain ⟨h, -⟩ := C44_settings_kept .exp 2 1 3 1 (fun _ _ => 1) (some 2) (some 5) [.addData demoNLArgs, .copySample]
  exact ⟨h.count, fun nd hnd => ⟨(h.nodes nd hnd).sigma, (h.nodes nd hnd).lmbda⟩⟩

end PyHawkes
