import Verif.Lemmas.Nodes
import Verif.Spec.Nodes
import Verif.Lemmas.Gaussian

/-!
# Entrywise view of arrays under broadcasting

`Arr.bget a i j` is defined for all natural `i`, `j` (the array repeated periodically).  For arrays without an axis of length zero
numpy's binary operations are pointwise in this view, whatever the shapes.
-/

namespace Verif

namespace Arr

theorem bdim_pos {a b c : ℕ} (h : bdim a b = some c) : 0 < c ↔ 0 < a ∧ 0 < b := by
  unfold bdim at h
  split_ifs at h <;> simp only [Option.some.injEq] at h <;> omega

theorem bdim_mod {a b c : ℕ} (h : bdim a b = some c) (i : ℕ) : i % c % a = i % a ∧ i % c % b = i % b := by
  unfold bdim at h
  split_ifs at h with h1 h2 h3 <;> simp only [Option.some.injEq] at h <;> subst h
  · subst h1; simp
  · subst h2; simp [Nat.mod_one]
  · subst h3; simp [Nat.mod_one]

theorem bget_mod (a : Arr) (i j : ℕ) : a.bget (i % a.rows) (j % a.cols) = a.bget i j := by
  cases a with
  | s a => rfl
  | v f => simp [bget, cols]
  | m M => simp [bget, rows, cols]

/-- Indices that agree modulo the axis lengths give the same entry. -/
theorem bget_congr (a : Arr) {i i' j j' : ℕ} (hi : i % a.rows = i' % a.rows) (hj : j % a.cols = j' % a.cols) :
    a.bget i j = a.bget i' j' := by
  rw [← bget_mod a i j, ← bget_mod a i' j', hi, hj]

theorem ndim_le (a : Arr) : a.ndim ≤ 2 := by cases a <;> simp [ndim, shape]

/-- Binary operations are pointwise in the broadcasting view. -/
theorem zip_bget {op : ℝ → ℝ → ℝ} {a b c : Arr} (h : a.zip op b = .ok c) :
    (c.Full ↔ a.Full ∧ b.Full) ∧ c.ndim = max a.ndim b.ndim ∧
      (c.Full → ∀ i j, c.bget i j = op (a.bget i j) (b.bget i j)) := by
  unfold zip at h
  cases hr : bdim a.rows b.rows with
  | none => rw [hr] at h; cases h
  | some r =>
    cases hc : bdim a.cols b.cols with
    | none => rw [hr, hc] at h; cases h
    | some k =>
      rw [hr, hc] at h
      simp only at h
      have hF : (0 < r ∧ 0 < k) ↔ a.Full ∧ b.Full := by
        rw [bdim_pos hr, bdim_pos hc]; unfold Full; tauto
      have hrow : ∀ x : Arr, x.ndim ≤ 1 → x.rows = 1 := by
        intro x hx; cases x <;> simp_all [ndim, shape, rows]
      have hcol : ∀ x : Arr, x.ndim = 0 → x.cols = 1 := by
        intro x hx; cases x <;> simp_all [ndim, shape, cols]
      have h1 : bdim 1 1 = some 1 := by simp [bdim]
      split at h
      · next hn =>
        simp only [Except.ok.injEq] at h; subst h
        have ha : a.ndim = 0 := by omega
        have hb : b.ndim = 0 := by omega
        rw [hrow a (by omega), hrow b (by omega), h1, Option.some.injEq] at hr
        rw [hcol a ha, hcol b hb, h1, Option.some.injEq] at hc
        subst hr hc
        refine ⟨hF, by rw [hn]; rfl, fun _ i j => ?_⟩
        simp only [bget]
        congr 1 <;> apply bget_congr <;> simp [hrow a (by omega), hrow b (by omega), hcol a ha, hcol b hb, Nat.mod_one]
      · next hn =>
        simp only [Except.ok.injEq] at h; subst h
        rw [hrow a (by omega), hrow b (by omega), h1, Option.some.injEq] at hr
        subst hr
        refine ⟨hF, by rw [hn]; rfl, fun hf i j => ?_⟩
        have hk : 0 < k := hf.2
        simp only [bget, Nat.mod_lt _ hk, dite_true]
        congr 1 <;> apply bget_congr <;> simp [hrow a (by omega), hrow b (by omega), Nat.mod_one, bdim_mod hc]
      · next hn0 hn1 =>
        simp only [Except.ok.injEq] at h; subst h
        have := ndim_le a
        have := ndim_le b
        refine ⟨hF, ?_, fun hf i j => ?_⟩
        · have : max a.ndim b.ndim ≠ 0 := hn0
          have : max a.ndim b.ndim ≠ 1 := hn1
          have : (m (r := r) (c := k) fun i j => op (a.bget i j) (b.bget i j)).ndim = 2 := rfl
          omega
        · have hr0 : 0 < r := hf.1
          have hk : 0 < k := hf.2
          simp only [bget, Nat.mod_lt _ hk, Nat.mod_lt _ hr0, and_self, dite_true]
          congr 1 <;> apply bget_congr <;> simp [bdim_mod hr, bdim_mod hc]

@[simp] theorem bget_smul (k : ℝ) (a : Arr) (i j : ℕ) : (a.smul k).bget i j = k * a.bget i j := by
  cases a <;> simp only [smul, map, bget]
  · split_ifs <;> simp
  · split_ifs <;> simp

theorem map_full (g : ℝ → ℝ) (a : Arr) : (a.map g).Full ↔ a.Full := by cases a <;> rfl
theorem map_ndim (g : ℝ → ℝ) (a : Arr) : (a.map g).ndim = a.ndim := by cases a <;> rfl
@[simp] theorem smul_full (k : ℝ) (a : Arr) : (a.smul k).Full ↔ a.Full := map_full _ a
@[simp] theorem smul_ndim (k : ℝ) (a : Arr) : (a.smul k).ndim = a.ndim := map_ndim _ a

theorem divS_bget {a c : Arr} {k : ℝ} (h : a.divS k = .ok c) :
    k ≠ 0 ∧ (c.Full ↔ a.Full) ∧ c.ndim = a.ndim ∧ ∀ i j, c.bget i j = a.bget i j / k := by
  unfold divS at h
  split_ifs at h with hk
  simp only [Except.ok.injEq] at h; subst h
  refine ⟨hk, map_full _ a, map_ndim _ a, fun i j => ?_⟩
  cases a <;> simp only [map, bget]
  · split_ifs <;> simp
  · split_ifs <;> simp

theorem T_full (a : Arr) : a.T.Full ↔ a.Full := by
  cases a <;> simp [T, Full, rows, cols, and_comm]

theorem T_ndim (a : Arr) : a.T.ndim = a.ndim := by cases a <;> rfl

theorem T_bget (a : Arr) (h : a.ndim = 2) (i j : ℕ) : a.T.bget i j = a.bget j i := by
  cases a with
  | s a => simp [ndim, shape] at h
  | v f => simp [ndim, shape] at h
  | m M =>
    simp only [T, bget, Matrix.transpose_apply]
    split_ifs with h1 h2 h2
    · rfl
    · exact absurd ⟨h1.2, h1.1⟩ h2
    · exact absurd ⟨h2.2, h2.1⟩ h1
    · rfl

theorem atleast1d_bget (a : Arr) (i j : ℕ) : a.atleast1d.bget i j = a.bget i j := by
  cases a <;> simp [atleast1d, bget, Nat.mod_one]

theorem atleast1d_full (a : Arr) : a.atleast1d.Full ↔ a.Full := by
  cases a <;> simp [atleast1d, Full, rows, cols]

end Arr

open Arr

/-- `symmetrize` on a matrix without empty axis: the symmetric part. -/
theorem symmetrize_bget {a c : Arr} (h : symmetrize a = .ok c) (h2 : a.ndim = 2) :
    (c.Full ↔ a.Full) ∧ c.ndim = 2 ∧ (c.Full → c.Symm ∧ ∀ i j, c.bget i j = (a.bget i j + a.bget j i) / 2) := by
  unfold symmetrize at h
  obtain ⟨s, h1, h⟩ := py_bind_ok h
  obtain ⟨f1, n1, b1⟩ := zip_bget h1
  obtain ⟨-, f2, n2, b2⟩ := divS_bget h
  have hf : c.Full ↔ a.Full := by rw [f2, f1, T_full]; tauto
  have e : c.Full → ∀ i j, c.bget i j = (a.bget i j + a.bget j i) / 2 := by
    intro hc i j
    rw [b2, b1 (f2.1 hc), T_bget a h2]
  refine ⟨hf, by rw [n2, n1, T_ndim, h2]; rfl, fun hc => ⟨fun i j => ?_, e hc⟩⟩
  rw [e hc, e hc, add_comm]

namespace Gaussian

variable {env : Env}

theorem Nats.inj {g : Gaussian} {P P' h h' : Arr} (a : Nats env g P h) (b : Nats env g P' h') : P = P' ∧ h = h' := by
  have h1 := a.1.symm.trans b.1
  have h2 := a.2.symm.trans b.2
  simp only [Except.ok.injEq] at h1 h2
  exact ⟨h1, h2⟩

theorem mul_nats {a b c : Gaussian} (h : a.mul env b = .ok c) :
    ∃ Pa ha Pb hb S P k, Nats env a Pa ha ∧ Nats env b Pb hb ∧ Pa.add Pb = .ok S ∧ symmetrize S = .ok P ∧ ha.add hb = .ok k ∧
      Nats env c P k.atleast1d := by
  unfold mul at h
  obtain ⟨Pa, h1, h⟩ := py_bind_ok h
  obtain ⟨Pb, h2, h⟩ := py_bind_ok h
  obtain ⟨S, h3, h⟩ := py_bind_ok h
  obtain ⟨P, h4, h⟩ := py_bind_ok h
  obtain ⟨ha, h5, h⟩ := py_bind_ok h
  obtain ⟨hb, h6, h⟩ := py_bind_ok h
  obtain ⟨k, h7, h⟩ := py_bind_ok h
  simp only [py_pure, Except.ok.injEq] at h
  subst h
  exact ⟨Pa, ha, Pb, hb, S, P, k, ⟨h1, h5⟩, ⟨h2, h6⟩, h3, h4, h7, precisionA_ofNatural _ _ _, shiftA_ofNatural _ _ _⟩

theorem truediv_nats {a b c : Gaussian} (h : a.truediv env b = .ok c) :
    ∃ Pa ha Pb hb P k, Nats env a Pa ha ∧ Nats env b Pb hb ∧ Pa.sub Pb = .ok P ∧ ha.sub hb = .ok k ∧
      Nats env c P k.atleast1d := by
  unfold truediv at h
  obtain ⟨Pa, h1, h⟩ := py_bind_ok h
  obtain ⟨Pb, h2, h⟩ := py_bind_ok h
  obtain ⟨P, h3, h⟩ := py_bind_ok h
  obtain ⟨ha, h5, h⟩ := py_bind_ok h
  obtain ⟨hb, h6, h⟩ := py_bind_ok h
  obtain ⟨k, h7, h⟩ := py_bind_ok h
  simp only [py_pure, Except.ok.injEq] at h
  subst h
  exact ⟨Pa, ha, Pb, hb, P, k, ⟨h1, h5⟩, ⟨h2, h6⟩, h3, h7, precisionA_ofNatural _ _ _, shiftA_ofNatural _ _ _⟩

theorem pow_nats {a c : Gaussian} {k : ℝ} (h : a.pow env k = .ok c) :
    ∃ P x, Nats env a P x ∧ Nats env c (P.smul k) (x.smul k).atleast1d := by
  unfold pow at h
  obtain ⟨P, h1, h⟩ := py_bind_ok h
  obtain ⟨x, h5, h⟩ := py_bind_ok h
  simp only [py_pure, Except.ok.injEq] at h
  subst h
  exact ⟨P, x, ⟨h1, h5⟩, precisionA_ofNatural _ _ _, shiftA_ofNatural _ _ _⟩

private theorem and_a {p q : Prop} : p ∧ (q ∧ p) ↔ p ∧ q := by tauto
private theorem and_b {p q r : Prop} : p ∧ (q ∧ r) ↔ p ∧ r ∧ q := by tauto
private theorem and_c {p q r : Prop} : p ∧ ((q ∧ r) ∧ q) ↔ p ∧ q ∧ r := by tauto

/-- What an accepted `power_update` does to the natural parameters, entry by entry and for every shape. -/
theorem powerUpdate_nats {nd : Node} {s f m F M : Gaussian} {Pf hf Pm hm : Arr} (h : nd.powerUpdate env s f m = .ok (F, M))
    (nf : Nats env f Pf hf) (nm : Nats env m Pm hm) (sf : SymMat Pf) (sm : SymMat Pm) :
    ∃ γ α Ps hs PF hF PM hM, nd.damping = some γ ∧ nd.power = some α ∧ α ≠ 0 ∧ Nats env s Ps hs ∧
      Nats env F PF hF ∧ Nats env M PM hM ∧ SymMat PF ∧ SymMat PM ∧
      (PM.Full ↔ Pm.Full ∧ Ps.Full) ∧ (PF.Full ↔ Pf.Full ∧ Pm.Full ∧ Ps.Full) ∧
      (hM.Full ↔ hm.Full ∧ hs.Full) ∧ (hF.Full ↔ hf.Full ∧ hm.Full ∧ hs.Full) ∧
      (PF.Full → ∀ i j, PF.bget i j = Pf.bget i j + γ * ((Ps.bget i j + Ps.bget j i) / 2 - Pm.bget i j)) ∧
      (PM.Full → ∀ i j, PM.bget i j = Pm.bget i j + γ / α * ((Ps.bget i j + Ps.bget j i) / 2 - Pm.bget i j)) ∧
      (hF.Full → ∀ i j, hF.bget i j = hf.bget i j + γ * (hs.bget i j - hm.bget i j)) ∧
      (hM.Full → ∀ i j, hM.bget i j = hm.bget i j + γ / α * (hs.bget i j - hm.bget i j)) := by
  obtain ⟨ratio, a, b, γ, α, hγ, hα, hα0, h1, h2, h3, h4, h5, -⟩ := Node.powerUpdate_ok h
  obtain ⟨Ps, hs, Pm', hm', Pr, kr, n1, n2, d1, d2, n3⟩ := truediv_nats h1
  obtain ⟨rfl, rfl⟩ := nm.inj n2
  obtain ⟨Pr', kr', n4, n5⟩ := pow_nats h2
  obtain ⟨rfl, rfl⟩ := n3.inj n4
  obtain ⟨Pf', hf', Pa, ha, S1, PF, kF, n6, n7, d3, d4, d5, n8⟩ := mul_nats h3
  obtain ⟨rfl, rfl⟩ := nf.inj n6
  obtain ⟨rfl, rfl⟩ := n5.inj n7
  obtain ⟨Pr'', kr'', n9, n10⟩ := pow_nats h4
  obtain ⟨rfl, rfl⟩ := n3.inj n9
  obtain ⟨Pm'', hm'', Pb, hb, S2, PM, kM, n11, n12, d6, d7, d8, n13⟩ := mul_nats h5
  obtain ⟨rfl, rfl⟩ := nm.inj n11
  obtain ⟨rfl, rfl⟩ := n10.inj n12
  obtain ⟨f1, m1, b1⟩ := zip_bget d1
  obtain ⟨f2, m2, b2⟩ := zip_bget d2
  obtain ⟨f3, m3, b3⟩ := zip_bget d3
  obtain ⟨f5, m5, b5⟩ := zip_bget d5
  obtain ⟨f6, m6, b6⟩ := zip_bget d6
  obtain ⟨f8, m8, b8⟩ := zip_bget d8
  have l1 := ndim_le Ps
  have hS1 : S1.ndim = 2 := by rw [m3, sf.1, smul_ndim, m1, sm.1]; omega
  have hS2 : S2.ndim = 2 := by rw [m6, sm.1, smul_ndim, m1, sm.1]; omega
  obtain ⟨f4, m4, b4⟩ := symmetrize_bget d4 hS1
  obtain ⟨f7, m7, b7⟩ := symmetrize_bget d7 hS2
  simp only [smul_full, atleast1d_full] at f3 f5 f6 f8
  refine ⟨γ, α, Ps, hs, PF, kF.atleast1d, PM, kM.atleast1d, hγ, hα, hα0, n1, n8, n13, ⟨m4, fun hc => (b4 hc).1⟩, ⟨m7, fun hc => (b7 hc).1⟩,
    ?_, ?_, ?_, ?_, ?_, ?_, ?_, ?_⟩
  · rw [f7, f6, f1]; exact and_a
  · rw [f4, f3, f1]; exact and_b
  · rw [atleast1d_full, f8, f2]; exact and_a
  · rw [atleast1d_full, f5, f2]; exact and_b
  · intro hF i j
    have hS := f4.1 hF
    have hX := f3.1 hS
    rw [(b4 hF).2, b3 hS, b3 hS, bget_smul, bget_smul, b1 hX.2, b1 hX.2, sf.2 hX.1 j i, sm.2 (f1.1 hX.2).2 j i]
    ring
  · intro hM i j
    have hS := f7.1 hM
    have hX := f6.1 hS
    rw [(b7 hM).2, b6 hS, b6 hS, bget_smul, bget_smul, b1 hX.2, b1 hX.2, sm.2 hX.1 j i]
    ring
  · intro hF i j
    rw [atleast1d_full] at hF
    have hX := f5.1 hF
    rw [atleast1d_bget, b5 hF, atleast1d_bget, bget_smul, atleast1d_bget, b2 hX.2]
  · intro hM i j
    rw [atleast1d_full] at hM
    have hX := f8.1 hM
    rw [atleast1d_bget, b8 hM, atleast1d_bget, bget_smul, atleast1d_bget, b2 hX.2]

/-- The same for the guarded block of `fwd_update`. -/
theorem fwdGuarded_nats {nd : Node} {proj : ProjTrans} {c F M : Gaussian} {Pf hf Pm hm : Arr}
    (h : Node.fwdGuarded env nd proj c = .ok (F, M)) (nf : Nats env nd.fwdFactor Pf hf) (nm : Nats env nd.marginal Pm hm)
    (sf : SymMat Pf) (sm : SymMat Pm) :
    ∃ γ α s Ps hs PF hF PM hM, nd.damping = some γ ∧ nd.power = some α ∧ α ≠ 0 ∧ proj nd.transFunc c = .ok s ∧ Nats env s Ps hs ∧
      Nats env F PF hF ∧ Nats env M PM hM ∧ SymMat PF ∧ SymMat PM ∧
      (PM.Full ↔ Pm.Full ∧ Pf.Full ∧ Ps.Full) ∧ (PF.Full ↔ Pf.Full ∧ Ps.Full) ∧
      (hM.Full ↔ hm.Full ∧ hf.Full ∧ hs.Full) ∧ (hF.Full ↔ hf.Full ∧ hs.Full) ∧
      (PF.Full → ∀ i j, PF.bget i j = Pf.bget i j + γ * ((Ps.bget i j + Ps.bget j i) / 2 - Pf.bget i j)) ∧
      (PM.Full → ∀ i j, PM.bget i j = Pm.bget i j + γ / α * ((Ps.bget i j + Ps.bget j i) / 2 - Pf.bget i j)) ∧
      (hF.Full → ∀ i j, hF.bget i j = hf.bget i j + γ * (hs.bget i j - hf.bget i j)) ∧
      (hM.Full → ∀ i j, hM.bget i j = hm.bget i j + γ / α * (hs.bget i j - hf.bget i j)) := by
  obtain ⟨s, a, b, d, k, γ, α, hp, -, hγ, hα, hα0, h1, h2, h3, h4, h5, h6, -⟩ := Node.fwdGuarded_ok h
  obtain ⟨P1, x1, n1, n2⟩ := pow_nats h1
  obtain ⟨rfl, rfl⟩ := nf.inj n1
  obtain ⟨Ps, hs, n3, n4⟩ := pow_nats h2
  obtain ⟨P2, x2, P3, x3, S1, PF, kF, n5, n6, d1, d2, d3, n7⟩ := mul_nats h3
  obtain ⟨rfl, rfl⟩ := n2.inj n5
  obtain ⟨rfl, rfl⟩ := n4.inj n6
  obtain ⟨P4, x4, P5, x5, Pd, kd, n8, n9, d4, d5, n10⟩ := truediv_nats h4
  obtain ⟨rfl, rfl⟩ := n7.inj n8
  obtain ⟨rfl, rfl⟩ := nf.inj n9
  obtain ⟨P6, x6, n11, n12⟩ := pow_nats h5
  obtain ⟨rfl, rfl⟩ := n10.inj n11
  obtain ⟨P7, x7, P8, x8, S2, PM, kM, n13, n14, d6, d7, d8, n15⟩ := mul_nats h6
  obtain ⟨rfl, rfl⟩ := nm.inj n13
  obtain ⟨rfl, rfl⟩ := n12.inj n14
  obtain ⟨f1, m1, b1⟩ := zip_bget d1
  obtain ⟨f3, m3, b3⟩ := zip_bget d3
  obtain ⟨f4, m4, b4⟩ := zip_bget d4
  obtain ⟨f5, m5, b5⟩ := zip_bget d5
  obtain ⟨f6, m6, b6⟩ := zip_bget d6
  obtain ⟨f8, m8, b8⟩ := zip_bget d8
  have l1 := ndim_le Ps
  have l2 := ndim_le Pd
  have hS1 : S1.ndim = 2 := by rw [m1, smul_ndim, smul_ndim, sf.1]; omega
  have hS2 : S2.ndim = 2 := by rw [m6, smul_ndim, sm.1]; omega
  obtain ⟨f2, m2, b2⟩ := symmetrize_bget d2 hS1
  obtain ⟨f7, m7, b7⟩ := symmetrize_bget d7 hS2
  simp only [smul_full, atleast1d_full] at f1 f3 f5 f6 f8
  have eF : PF.Full → ∀ i j, PF.bget i j = Pf.bget i j + γ * ((Ps.bget i j + Ps.bget j i) / 2 - Pf.bget i j) := by
    intro hF i j
    have hS := f2.1 hF
    rw [(b2 hF).2, b1 hS, b1 hS, bget_smul, bget_smul, bget_smul, bget_smul, sf.2 (f1.1 hS).1 j i]
    ring
  have eh : kF.Full → ∀ i j, kF.bget i j = hf.bget i j + γ * (hs.bget i j - hf.bget i j) := by
    intro hF i j
    rw [b3 hF]
    simp only [atleast1d_bget, bget_smul]
    ring
  refine ⟨γ, α, s, Ps, hs, PF, kF.atleast1d, PM, kM.atleast1d, hγ, hα, hα0, hp, n3, n7, n15, ⟨m2, fun hc => (b2 hc).1⟩,
    ⟨m7, fun hc => (b7 hc).1⟩, ?_, ?_, ?_, ?_, eF, ?_, ?_, ?_⟩
  · rw [f7, f6, f4, f2, f1]; exact and_c
  · rw [f2, f1]
  · rw [atleast1d_full, f8, f5, f3]; exact and_c
  · rw [atleast1d_full, f3]
  · intro hM i j
    have hS := f7.1 hM
    have hX := f6.1 hS
    have hY := f4.1 hX.2
    rw [(b7 hM).2, b6 hS, b6 hS, bget_smul, bget_smul, b4 hX.2, b4 hX.2, eF hY.1, eF hY.1, sm.2 hX.1 j i, sf.2 hY.2 j i]
    ring
  · intro hF i j
    rw [atleast1d_full] at hF
    rw [atleast1d_bget, eh hF]
  · intro hM i j
    rw [atleast1d_full] at hM
    have hX := f8.1 hM
    have hY := f5.1 hX.2
    rw [atleast1d_bget, b8 hM, atleast1d_bget, bget_smul, atleast1d_bget, b5 hX.2, atleast1d_bget, eh hY.1]
    ring

end Gaussian

end Verif
