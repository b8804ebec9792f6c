import Verif.Props.EvidenceRows
import Verif.Spec.Evidence
import Verif.Props.MixPosterior

/-!
# C103, tools: `get_vlb()` against the log evidence, for any valid variational state
-/
set_option linter.unusedSectionVars false
set_option linter.unusedVariables false

namespace PyHawkes
open Finset Spec MeasureTheory ProbabilityTheory

theorem parents_sum_value (M : MFModel) (hs : M.net.allowSelf = true) (hD : ∀ D ∈ M.data, DataOk D) :
    (M.data.map M.parentsVlb).sum = .fin (dataBound M.K M.B M.data M.bias.eLam M.bias.eLnLam M.w.wR M.w.lnWR (M.imp.eLnG M.B)) := by
  rw [List.map_congr_left fun D h => parentsVlb_value M hs (hD D h).1 (hD D h).2.2.1 (hD D h).2.2.2, list_fin_sum]
  unfold dataBound
  congr 2
  refine List.map_congr_left fun D _ => ?_
  have e : ∀ (n : ℕ) (f : ℕ → ℝ), ((List.range n).map f).sum = ∑ k ∈ range n, f k := fun n f => by
    rw [Finset.sum_range, ← List.sum_ofFn, List.ofFn_eq_map, ← List.map_coe_finRange_eq_range, List.map_map]; rfl
  rw [e]
  refine sum_congr rfl fun k _ => ?_
  unfold dataConst zRows
  rw [forRange_add]
  congr 1
  rw [zero_add, sub_eq_add_neg, ← sum_neg_distrib]
  congr 1
  exact sum_congr rfl fun _ _ => by ring

/-- the variational parameters of one pair, with the coefficients of the data -/
noncomputable def pairOf (M : MFModel) (i j : ℕ) : PairQ where
  q := M.w.mfP i j
  k0 := M.w.mfKappa0 i j
  v0 := M.w.mfV0 i j
  k1 := M.w.mfKappa1 i j
  v1 := M.w.mfV1 i j
  Z := ∑ b ∈ range M.B, cBasis M.B M.data i j b
  N := (M.data.map fun D => (D.Ns i : ℝ)).sum

theorem pairOf_val (M : MFModel) {i j : ℕ} (h0 : 0 < M.w.kappa0 ∧ 0 < M.w.nu0) (h : 0 < M.w.mfKappa0 i j ∧ 0 < M.w.mfV0 i j) (κ lp ln eV eLnV : ℝ) :
    (pairOf M i j).val M.w.kappa0 M.w.nu0 κ lp ln eV eLnV
      = (∑ b ∈ range M.B, cBasis M.B M.data i j b) * M.w.lnWR i j - (M.data.map fun D => (D.Ns i : ℝ)).sum * M.w.wR i j + wEntry κ eV eLnV lp ln M.w i j := by
  have e1 : M.w.eWGivenA 1 i j = M.w.mfKappa1 i j / M.w.mfV1 i j := by simp [MFWeights.eWGivenA]
  have e0 : M.w.eWGivenA 0 i j = M.w.mfKappa0 i j / M.w.mfV0 i j := by simp [MFWeights.eWGivenA]
  have l1 : M.w.eLnWGivenA 1 i j = psi (M.w.mfKappa1 i j) - Real.log (M.w.mfV1 i j) := by simp [MFWeights.eLnWGivenA]
  have l0 : M.w.eLnWGivenA 0 i j = psi (M.w.mfKappa0 i j) - Real.log (M.w.mfV0 i j) := by simp [MFWeights.eLnWGivenA]
  unfold PairQ.val wEntry pairOf MFWeights.lnWR MFWeights.wR
  dsimp only
  rw [klGamma_eq h.1 h.2 h0.1 h0.2, e1, e0, l1, l0]
  ring

theorem sum_pair_range (K : ℕ) (f : ℕ → ℕ → ℝ) : ∑ e : Pair K, f e.1 e.2 = ∑ i ∈ range K, ∑ j ∈ range K, f i j := by
  rw [Fintype.sum_prod_type, Finset.sum_range]
  exact sum_congr rfl fun i _ => (Finset.sum_range fun j => f i j).symm

/-- **the evidence bound for any valid variational state**, with the filtered counts of the likelihood given by `φ` and the price of the guards by `d` -/
theorem vlb_le_evidence (huge : ℝ) {M : MFModel} {c : HawkesState} {n : ERFixed} (sh : SharedSettings M c n) (h : CfgOk c n) (hself : M.net.allowSelf = true) (hdt : c.base.dt ≤ 1)
    (hp : ∀ i < c.base.K, ∀ j < c.base.K, 0 < n.P i j ∧ n.P i j < 1) (hbias : ∀ k < M.K, 0 < M.bias.mfAlpha k ∧ 0 < M.bias.mfBeta k)
    (himp : ∀ i < M.K, ∀ j < M.K, ∀ b < M.B, 0 < M.imp.mfGamma i j b) (hw0 : 0 < M.w.kappa0 ∧ 0 < M.w.nu0)
    (hw : ∀ i < M.K, ∀ j < M.K, 0 < M.w.mfKappa0 i j ∧ 0 < M.w.mfV0 i j ∧ 0 < M.w.mfKappa1 i j ∧ 0 < M.w.mfV1 i j) (hq : ∀ i < M.K, ∀ j < M.K, 0 < M.w.mfP i j ∧ M.w.mfP i j < 1)
    (hD : ∀ D ∈ M.data, DataOk D) (hsum : ∀ D ∈ M.data, EZSum M.K M.B D) (φ : Mat ℝ → Mat ℝ) (d : Vec ℝ → Mat ℝ → Mat ℝ)
    (hφ : ∀ D ∈ M.data, ∀ t, ∀ k < M.K, ∀ b < M.B, 0 ≤ φ (D.F t) k b)
    (hsup : ∀ D ∈ M.data, ∀ k2 < M.K, ∀ r ∈ zRows D k2, ∀ k < M.K, ∀ b < M.B, 0 < r.1 (1 + k * M.B + b) → 0 < φ r.2.2 k b)
    (hd : ∀ D ∈ M.data, ∀ k2 < M.K, ∀ r ∈ zRows D k2, ∀ k < M.K, ∀ b < M.B,
      r.1 (1 + k * M.B + b) * Real.log (r.2.2 k b + 1e-32) ≤ r.1 (1 + k * M.B + b) * Real.log (φ r.2.2 k b) + d r.1 r.2.2 k b)
    (hdata : List.Forall₂ (fun D D' : DParents ℝ => D'.T = D.T ∧ D'.S = D.S ∧ D'.F = D.F) (M.data.map (mapF φ)) c.data) {x : ℝ} (hx : M.vlb huge = .ok (.fin x)) :
    ENNReal.ofReal (Real.exp (x - (((M.K * M.K : ℕ) : ℝ) - 1) * lnDirNorm M.B M.imp.gamma - (M.data.map (rowSlack M.K M.B d)).sum))
      ≤ ∫⁻ θ, likelihoodMix c θ ∂priorMix M.w.kappa0 M.w.nu0 c n := by
  obtain ⟨sK, sB, sa, sb, sg, m, sn, sP, sκ, al, be, a, b, na, nb, ma, mb, mm, hal, hbe, ha, hb⟩ := sh
  have hsc : scalePrior n = gammaMeasure al be := by
    unfold scalePrior
    rw [na, nb]
    simp [truthy, hal.ne', hbe.ne']
  obtain ⟨V, L, y, s, u, h1, h2, h3, h4, h5, rfl⟩ := vlb_parts huge M hx
  rw [parents_sum_value M hself hD] at h4
  cases h4
  have eV : V = fun _ _ => a / b := by
    rw [sn] at h1; simp only [MFNet.eV, mm] at h1; exact (Except.ok.inj h1).symm
  have eL : L = fun _ _ => psi a - Real.log b := by
    rw [sn] at h2; simp only [MFNet.eLnV, mm] at h2; exact (Except.ok.inj h2).symm
  have ey : y = -klGamma a b al be := by
    rw [sn] at h3; exact (Except.ok.inj ((C55_er_nonpos m ma mb mm hal hbe ha hb).1.symm.trans h3)).symm
  have eu : u = ∑ i ∈ range M.K, ∑ j ∈ range M.K, wEntry n.kappa (a / b) (psi a - Real.log b) (Real.log (n.P i j)) (Real.log (1 - n.P i j)) M.w i j := by
    have := wVlb_value M.K M.net V L (fun i j => Real.log (n.P i j)) (fun i j => Real.log (1 - n.P i j)) M.w hq (by
      intro i hi j hj
      rw [sK] at hi hj
      have := hp i hi j hj
      rw [sn]
      refine ⟨?_, ?_⟩
      · show FX.log (m.P i j) = _
        rw [sP, FX.log_pos this.1]
      · show FX.log (1 - m.P i j) = _
        rw [sP, FX.log_pos (by linarith [this.2])])
    rw [h5] at this
    have hk : M.net.kappa = n.kappa := by rw [sn, ← sκ]; rfl
    rw [hk, eV, eL] at this
    cases this
    rfl
  subst eV eL
  have bnd := evidence_ge h hw0.1 hw0.2 hsc hal hbe ha hb (fun e => hp e.1 e.1.2 e.2 e.2.2) (fun e => pairOf M e.1 e.2)
    (fun e => by
      have e1 : (e.1 : ℕ) < M.K := by rw [sK]; exact e.1.2
      have e2 : (e.2 : ℕ) < M.K := by rw [sK]; exact e.2.2
      have := hw e.1 e1 e.2 e2
      exact ⟨hq e.1 e1 e.2 e2, this.1, this.2.1, this.2.2.1, this.2.2.2⟩)
    (fun k => M.bias.mfAlpha k) (fun k => M.bias.mfBeta k) (fun k => cBkgd M.data k) (fun _ => (M.data.map fun D => (D.T : ℝ)).sum) (fun k => hbias k (by rw [sK]; exact k.2))
    (fun e => M.imp.mfGamma e.1 e.2) (fun e b => cBasis M.B M.data e.1 e.2 b)
    (fun e b hb => himp e.1 (by rw [sK]; exact e.1.2) e.2 (by rw [sK]; exact e.2.2) b (by rw [sB]; exact hb))
    (cConst M.K M.B M.data - (M.data.map (rowSlack M.K M.B d)).sum) (measurable_likelihoodMix h.data) (by
      intro θ hW hl hg
      unfold likelihoodMix
      refine ENNReal.ofReal_le_ofReal (Real.exp_le_exp.2 ?_)
      set P := rateParams c.base (fun _ => 1) θ.2.2.1 θ.2.2.2.1 θ.2.2.2.2 with hP
      have PK : P.K = M.K := sK.symm
      have PB : P.B = M.B := sB.symm
      have ll : llModel P c.data = llModel P (M.data.map (mapF φ)) := llModel_congr rfl rfl rfl (fun _ _ => rfl) (fun _ _ _ _ => rfl) (fun _ _ _ _ _ _ => rfl) hdata
      rw [ll]
      have pl : ∀ k : Fin c.base.K, P.lam0 k = θ.2.2.2.1 k := fun k => by simp [hP, rateParams]
      have pW : ∀ e : Pair c.base.K, P.Weff e.1 e.2 = θ.2.2.1 e := fun e => by simp [hP, rateParams]
      have pg : ∀ e : Pair c.base.K, P.g e.1 e.2 = θ.2.2.2.2 e := fun e => by simp [hP, rateParams]
      have key := dataBound_le P hdt (fun k hk => by rw [pl ⟨k, hk⟩]; exact hl _) (fun i hi j hj => by rw [pW (⟨i, hi⟩, ⟨j, hj⟩)]; exact hW _)
        (fun i hi j hj b hb => by rw [pg (⟨i, hi⟩, ⟨j, hj⟩)]; exact hg _ b hb) M.data hD (by rw [PK, PB]; exact hsum) φ d (by rw [PK, PB]; exact hφ) (by rw [PK, PB]; exact hsup) (by rw [PK, PB]; exact hd)
      rw [dataBound_affine, PK, PB] at key
      refine le_trans (le_of_eq ?_) key
      have r1 : ∑ k ∈ range M.K, (cBkgd M.data k * Real.log (P.lam0 k) - (M.data.map fun D => (D.T : ℝ)).sum * P.lam0 k)
          = ∑ k : Fin c.base.K, (cBkgd M.data k * Real.log (θ.2.2.2.1 k) - (M.data.map fun D => (D.T : ℝ)).sum * θ.2.2.2.1 k) := by
        rw [sK, Finset.sum_range]
        exact sum_congr rfl fun k _ => by rw [pl]
      have r2 : ∑ k1 ∈ range M.K, ∑ k ∈ range M.K, ((∑ b ∈ range M.B, cBasis M.B M.data k1 k b) * Real.log (P.Weff k1 k) - (M.data.map fun D => (D.Ns k1 : ℝ)).sum * P.Weff k1 k)
          = ∑ e : Pair c.base.K, ((pairOf M e.1 e.2).Z * Real.log (θ.2.2.1 e) - (pairOf M e.1 e.2).N * θ.2.2.1 e) := by
        rw [sK, ← sum_pair_range c.base.K fun k1 k => (∑ b ∈ range M.B, cBasis M.B M.data k1 k b) * Real.log (P.Weff k1 k) - (M.data.map fun D => (D.Ns k1 : ℝ)).sum * P.Weff k1 k]
        exact sum_congr rfl fun e _ => by rw [pW]; rfl
      have r3 : ∑ k1 ∈ range M.K, ∑ k ∈ range M.K, ∑ b ∈ range M.B, cBasis M.B M.data k1 k b * Real.log (P.g k1 k b)
          = ∑ e : Pair c.base.K, ∑ b ∈ range c.base.B, cBasis M.B M.data e.1 e.2 b * Real.log (θ.2.2.2.2 e b) := by
        rw [sK, ← sum_pair_range c.base.K fun k1 k => ∑ b ∈ range M.B, cBasis M.B M.data k1 k b * Real.log (P.g k1 k b)]
        exact sum_congr rfl fun e _ => by rw [pg, sB]
      rw [r1, r2, r3]
      ring)
  refine le_trans (le_of_eq ?_) bnd
  congr 2
  rw [dataBound_affine, C55_bias_minus_kl M.K M.bias (sa ▸ h.hyper.alpha) (sb ▸ h.hyper.beta) hbias, C55_impulse_value, eu, ey]
  have t1 : ∑ k : Fin c.base.K, (cBkgd M.data k * (psi (M.bias.mfAlpha k) - Real.log (M.bias.mfBeta k)) - (M.data.map fun D => (D.T : ℝ)).sum * (M.bias.mfAlpha k / M.bias.mfBeta k)
        - klGamma (M.bias.mfAlpha k) (M.bias.mfBeta k) c.alpha c.beta)
      = ∑ k ∈ range M.K, (cBkgd M.data k * M.bias.eLnLam k - (M.data.map fun D => (D.T : ℝ)).sum * M.bias.eLam k) - ∑ k ∈ range M.K, klGamma (M.bias.mfAlpha k) (M.bias.mfBeta k) M.bias.alpha M.bias.beta := by
    rw [sK, ← sum_sub_distrib, Finset.sum_range, sa, sb]
    rfl
  have t2 : ∑ e : Pair c.base.K, (pairOf M e.1 e.2).val M.w.kappa0 M.w.nu0 n.kappa (Real.log (n.P e.1 e.2)) (Real.log (1 - n.P e.1 e.2)) (a / b) (psi a - Real.log b)
      = ∑ k1 ∈ range M.K, ∑ k ∈ range M.K, ((∑ b ∈ range M.B, cBasis M.B M.data k1 k b) * M.w.lnWR k1 k - (M.data.map fun D => (D.Ns k1 : ℝ)).sum * M.w.wR k1 k)
        + ∑ i ∈ range M.K, ∑ j ∈ range M.K, wEntry n.kappa (a / b) (psi a - Real.log b) (Real.log (n.P i j)) (Real.log (1 - n.P i j)) M.w i j := by
    rw [← sum_add_distrib, sum_pair_range c.base.K fun i j => (pairOf M i j).val M.w.kappa0 M.w.nu0 n.kappa (Real.log (n.P i j)) (Real.log (1 - n.P i j)) (a / b) (psi a - Real.log b), ← sK]
    refine sum_congr rfl fun i hi => ?_
    rw [← sum_add_distrib]
    refine sum_congr rfl fun j hj => ?_
    have := hw i (mem_range.1 hi) j (mem_range.1 hj)
    rw [pairOf_val M hw0 ⟨this.1, this.2.1⟩]
  have t3 : ∑ e : Pair c.base.K, (∑ b ∈ range c.base.B, cBasis M.B M.data e.1 e.2 b * (psi (M.imp.mfGamma e.1 e.2 b) - psi (∑ b ∈ range c.base.B, M.imp.mfGamma e.1 e.2 b)) - klDirichlet c.base.B (M.imp.mfGamma e.1 e.2) c.gamma)
      = ∑ k1 ∈ range M.K, ∑ k ∈ range M.K, ∑ b ∈ range M.B, cBasis M.B M.data k1 k b * M.imp.eLnG M.B k1 k b - ∑ k1 ∈ range M.K, ∑ k ∈ range M.K, klDirichlet M.B (M.imp.mfGamma k1 k) M.imp.gamma := by
    rw [← sum_sub_distrib, sum_pair_range c.base.K fun i j => ∑ b ∈ range c.base.B, cBasis M.B M.data i j b * (psi (M.imp.mfGamma i j b) - psi (∑ b ∈ range c.base.B, M.imp.mfGamma i j b)) - klDirichlet c.base.B (M.imp.mfGamma i j) c.gamma, ← sK, sg, sB]
    refine sum_congr rfl fun i hi => ?_
    rw [← sum_sub_distrib]
    rfl
  rw [t1, t2, t3]
  ring

end PyHawkes
