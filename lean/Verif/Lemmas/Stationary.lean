import Verif.Lemmas.Broadcast
import Verif.Spec.Stationary

/-!
# Shapes under broadcasting, and products that change nothing
-/

namespace Verif

namespace Arr

/-- The same shape. -/
def SameShape (a b : Arr) : Prop := a.ndim = b.ndim ∧ a.rows = b.rows ∧ a.cols = b.cols

/-- Broadcasting can stretch `a` to the shape of `c`. -/
def Fits (a c : Arr) : Prop := a.ndim ≤ c.ndim ∧ (a.rows = c.rows ∨ a.rows = 1) ∧ (a.cols = c.cols ∨ a.cols = 1)

theorem SameShape.refl (a : Arr) : SameShape a a := ⟨rfl, rfl, rfl⟩
theorem SameShape.symm {a b : Arr} (h : SameShape a b) : SameShape b a := ⟨h.1.symm, h.2.1.symm, h.2.2.symm⟩
theorem SameShape.trans {a b c : Arr} (h : SameShape a b) (k : SameShape b c) : SameShape a c :=
  ⟨h.1.trans k.1, h.2.1.trans k.2.1, h.2.2.trans k.2.2⟩

theorem SameShape.full {a b : Arr} (h : SameShape a b) : a.Full ↔ b.Full := by
  unfold Full; rw [h.2.1, h.2.2]

theorem Fits.refl (a : Arr) : Fits a a := ⟨le_rfl, .inl rfl, .inl rfl⟩

theorem Fits.trans {a b c : Arr} (h : Fits a b) (k : Fits b c) : Fits a c := by
  obtain ⟨h1, h2, h3⟩ := h
  obtain ⟨k1, k2, k3⟩ := k
  refine ⟨h1.trans k1, ?_, ?_⟩ <;> omega

theorem Fits.antisymm {a b : Arr} (h : Fits a b) (k : Fits b a) : SameShape a b := by
  obtain ⟨h1, h2, h3⟩ := h
  obtain ⟨k1, k2, k3⟩ := k
  refine ⟨le_antisymm h1 k1, ?_, ?_⟩ <;> omega

theorem smul_shape (k : ℝ) (a : Arr) : SameShape (a.smul k) a := by cases a <;> exact ⟨rfl, rfl, rfl⟩

theorem atleast1d_fits (a : Arr) : Fits a a.atleast1d := by
  cases a <;> simp [atleast1d, Fits, ndim, shape, rows, cols]

theorem SameShape.atleast1d {a b : Arr} (h : SameShape a b) : SameShape a.atleast1d b.atleast1d := by
  obtain ⟨h1, h2, h3⟩ := h
  cases a <;> cases b <;> simp_all [Arr.atleast1d, SameShape, ndim, shape, rows, cols]

theorem smul_atleast1d (k : ℝ) (a : Arr) : (a.smul k).atleast1d = a.atleast1d.smul k := by cases a <;> rfl

theorem zip_shape {op : ℝ → ℝ → ℝ} {a b c : Arr} (h : a.zip op b = .ok c) :
    bdim a.rows b.rows = some c.rows ∧ bdim a.cols b.cols = some c.cols ∧ c.ndim = max a.ndim b.ndim := by
  have hn := (zip_bget h).2.1
  unfold zip at h
  cases hr : bdim a.rows b.rows with
  | none => rw [hr] at h; cases h
  | some r =>
    cases hc : bdim a.cols b.cols with
    | none => rw [hr, hc] at h; cases h
    | some k =>
      rw [hr, hc] at h
      simp only at h
      have hrow : ∀ x : Arr, x.ndim ≤ 1 → x.rows = 1 := by
        intro x hx; cases x <;> simp_all [ndim, shape, rows]
      have hcol : ∀ x : Arr, x.ndim = 0 → x.cols = 1 := by
        intro x hx; cases x <;> simp_all [ndim, shape, cols]
      have h1 : bdim 1 1 = some 1 := by simp [bdim]
      refine ⟨?_, ?_, hn⟩
      all_goals
        split at h
        · next e =>
          simp only [Except.ok.injEq] at h; subst h
          first
          | rw [hrow a (by omega), hrow b (by omega), h1] at hr; rw [← hr]; rfl
          | rw [hcol a (by omega), hcol b (by omega), h1] at hc; rw [← hc]; rfl
        · next e =>
          simp only [Except.ok.injEq] at h; subst h
          first
          | rw [hrow a (by omega), hrow b (by omega), h1] at hr; rw [← hr]; rfl
          | rfl
        · simp only [Except.ok.injEq] at h; subst h; rfl

theorem zip_ok_of {op : ℝ → ℝ → ℝ} {a b : Arr} {r k : ℕ} (hr : bdim a.rows b.rows = some r) (hc : bdim a.cols b.cols = some k) :
    ∃ c, a.zip op b = .ok c := by
  unfold zip
  rw [hr, hc]
  simp only
  split <;> exact ⟨_, rfl⟩

/-- Whether two arrays can be combined depends on their shapes only, and so does the shape of the result. -/
theorem zip_like {op op' : ℝ → ℝ → ℝ} {a b c a' b' : Arr} (h : a.zip op b = .ok c) (ha : SameShape a a') (hb : SameShape b b') :
    ∃ c', a'.zip op' b' = .ok c' ∧ SameShape c c' := by
  obtain ⟨h1, h2, h3⟩ := zip_shape h
  rw [ha.2.1, hb.2.1] at h1
  rw [ha.2.2, hb.2.2] at h2
  obtain ⟨c', hc'⟩ := zip_ok_of (op := op') h1 h2
  obtain ⟨k1, k2, k3⟩ := zip_shape hc'
  refine ⟨c', hc', ?_, ?_, ?_⟩
  · rw [h3, k3, ha.1, hb.1]
  · rw [h1] at k1; exact Option.some.inj k1
  · rw [h2] at k2; exact Option.some.inj k2

theorem bdim_left {a b c : ℕ} (h : bdim a b = some c) : a = c ∨ a = 1 := by
  unfold bdim at h
  split_ifs at h <;> simp_all

theorem zip_fits {op : ℝ → ℝ → ℝ} {a b c : Arr} (h : a.zip op b = .ok c) : Fits a c := by
  obtain ⟨h1, h2, h3⟩ := zip_shape h
  exact ⟨by omega, bdim_left h1, bdim_left h2⟩

/-- Arrays with the same shape and the same entries are equal. -/
theorem ext_bget {a b : Arr} (hs : SameShape a b) (h : a.Full → ∀ i j, a.bget i j = b.bget i j) : a = b := by
  obtain ⟨h1, h2, h3⟩ := hs
  cases a with
  | s x => cases b with
    | s y => have := h ⟨one_pos, one_pos⟩ 0 0; simp only [bget] at this; rw [this]
    | v f => simp [ndim, shape] at h1
    | m M => simp [ndim, shape] at h1
  | @v n f => cases b with
    | s y => simp [ndim, shape] at h1
    | @v n' g =>
      obtain rfl : n = n' := h3
      congr 1; funext i
      have hn : 0 < n := lt_of_le_of_lt (Nat.zero_le _) i.2
      have := h ⟨one_pos, hn⟩ 0 i
      simpa [bget, Nat.mod_eq_of_lt i.2] using this
    | m M => simp [ndim, shape] at h1
  | @m r c M => cases b with
    | s y => simp [ndim, shape] at h1
    | v f => simp [ndim, shape] at h1
    | @m r' c' N =>
      obtain rfl : r = r' := h2
      obtain rfl : c = c' := h3
      congr 1; funext i j
      have hr : 0 < r := lt_of_le_of_lt (Nat.zero_le _) i.2
      have hc : 0 < c := lt_of_le_of_lt (Nat.zero_le _) j.2
      have := h ⟨hr, hc⟩ i j
      simpa [bget, Nat.mod_eq_of_lt i.2, Nat.mod_eq_of_lt j.2] using this

theorem SameShape.T {a b : Arr} (h : SameShape a b) : SameShape a.T b.T := by
  obtain ⟨h1, h2, h3⟩ := h
  cases a <;> cases b <;> simp_all [Arr.T, SameShape, ndim, shape, rows, cols]

theorem divS_shape {a c : Arr} {k : ℝ} (h : a.divS k = .ok c) : SameShape a c := by
  unfold divS at h
  split_ifs at h
  simp only [Except.ok.injEq] at h; subst h
  cases a <;> exact ⟨rfl, rfl, rfl⟩

end Arr

open Arr

theorem symmetrize_fits {a c : Arr} (h : symmetrize a = .ok c) : Fits a c := by
  unfold symmetrize at h
  obtain ⟨s, h1, h⟩ := py_bind_ok h
  have := divS_shape h
  have h2 := zip_fits h1
  unfold Fits at h2 ⊢
  rwa [← this.1, ← this.2.1, ← this.2.2]

theorem symmetrize_like {a c a' : Arr} (h : symmetrize a = .ok c) (ha : SameShape a a') :
    ∃ c', symmetrize a' = .ok c' ∧ SameShape c c' := by
  unfold symmetrize at h ⊢
  obtain ⟨s, h1, h⟩ := py_bind_ok h
  obtain ⟨s', h2, hs⟩ := zip_like (op' := (· + ·)) h1 ha ha.T
  have e : a'.add a'.T = .ok s' := h2
  refine ⟨s'.map (· / 2), ?_, ?_⟩
  · rw [e, ok_bind, divS, if_neg two_ne_zero]
  · have h3 := divS_shape h
    refine h3.symm.trans (hs.trans ?_)
    cases s' <;> exact ⟨rfl, rfl, rfl⟩

namespace Gaussian

variable {env : Env}

theorem nats_ofNatural (P h : Arr) : Nats env (ofNatural P h) P h.atleast1d := ⟨precisionA_ofNatural _ _ _, shiftA_ofNatural _ _ _⟩

theorem ofNatural_atleast1d (P h : Arr) : ofNatural P h.atleast1d = ofNatural P h := by
  simp only [ofNatural, init, atleast1d_idem]

/-- What `a * b` is, entry by entry. -/
theorem mul_entries {a b c : Gaussian} (h : a.mul env b = .ok c) {Pa ha Pb hb : Arr} (na : Nats env a Pa ha) (nb : Nats env b Pb hb)
    (h2 : Pa.ndim = 2) :
    ∃ P k, c = ofNatural P k ∧ k.atleast1d = k ∧ Fits Pa P ∧ Fits ha k ∧ (P.Full ↔ Pa.Full ∧ Pb.Full) ∧ (k.Full ↔ ha.Full ∧ hb.Full) ∧
      (P.Full → ∀ i j, P.bget i j = (Pa.bget i j + Pb.bget i j + (Pa.bget j i + Pb.bget j i)) / 2) ∧
      (k.Full → ∀ i j, k.bget i j = ha.bget i j + hb.bget i j) := by
  unfold mul at h
  rw [na.1, ok_bind, nb.1, ok_bind] at h
  obtain ⟨S, h3, h⟩ := py_bind_ok h
  obtain ⟨P, h4, h⟩ := py_bind_ok h
  rw [na.2, ok_bind, nb.2, ok_bind] at h
  obtain ⟨k, h7, h⟩ := py_bind_ok h
  simp only [py_pure, Except.ok.injEq] at h
  subst h
  obtain ⟨f1, m1, b1⟩ := zip_bget h3
  obtain ⟨f5, m5, b5⟩ := zip_bget h7
  have l1 := ndim_le Pb
  have hS : S.ndim = 2 := by rw [m1, h2]; omega
  obtain ⟨f4, m4, b4⟩ := symmetrize_bget h4 hS
  refine ⟨P, k.atleast1d, (ofNatural_atleast1d _ _).symm, atleast1d_idem k, (zip_fits h3).trans (symmetrize_fits h4),
    (zip_fits h7).trans (atleast1d_fits k), f4.trans f1, (atleast1d_full k).trans f5, fun hP i j => ?_, fun hk i j => ?_⟩
  · have hS' := f4.1 hP
    rw [(b4 hP).2, b1 hS', b1 hS']
  · rw [atleast1d_full] at hk
    rw [atleast1d_bget, b5 hk]

/-- Whether a product can be formed, and the shape of the result, depend on the shapes of the parameters only. -/
theorem mul_like {a b c a' b' : Gaussian} (h : a.mul env b = .ok c) {Pa ha Pb hb Pa' ha' Pb' hb' : Arr} (na : Nats env a Pa ha)
    (nb : Nats env b Pb hb) (na' : Nats env a' Pa' ha') (nb' : Nats env b' Pb' hb') (s1 : SameShape Pa Pa') (s2 : SameShape ha ha')
    (s3 : SameShape Pb Pb') (s4 : SameShape hb hb') :
    ∃ c' P k P' k', a'.mul env b' = .ok c' ∧ c = ofNatural P k ∧ c' = ofNatural P' k' ∧ k.atleast1d = k ∧ k'.atleast1d = k' ∧
      SameShape P P' ∧ SameShape k k' := by
  unfold mul at h
  rw [na.1, ok_bind, nb.1, ok_bind] at h
  obtain ⟨S, h3, h⟩ := py_bind_ok h
  obtain ⟨P, h4, h⟩ := py_bind_ok h
  rw [na.2, ok_bind, nb.2, ok_bind] at h
  obtain ⟨k, h7, h⟩ := py_bind_ok h
  simp only [py_pure, Except.ok.injEq] at h
  subst h
  obtain ⟨S', g3, e3⟩ := zip_like (op' := (· + ·)) h3 s1 s3
  obtain ⟨P', g4, e4⟩ := symmetrize_like h4 e3
  obtain ⟨k', g7, e7⟩ := zip_like (op' := (· + ·)) h7 s2 s4
  refine ⟨ofNatural P' k', P, k.atleast1d, P', k'.atleast1d, ?_, (ofNatural_atleast1d _ _).symm, (ofNatural_atleast1d _ _).symm,
    atleast1d_idem k, atleast1d_idem k', e4, e7.atleast1d⟩
  have g3' : Pa'.add Pb' = .ok S' := g3
  have g7' : ha'.add hb' = .ok k' := g7
  unfold mul
  simp only [na'.1, nb'.1, na'.2, nb'.2, ok_bind, g3', g4, g7', py_pure]

theorem natural_eq {P h P' h' : Arr} (s1 : SameShape P P') (s2 : SameShape h h') (b1 : ∀ i j, P.bget i j = P'.bget i j)
    (b2 : ∀ i j, h.bget i j = h'.bget i j) : ofNatural P h = ofNatural P' h' := by
  rw [ext_bget s1 fun _ => b1, ext_bget s2 fun _ => b2]

theorem ofNatural_inj {P h P' h' : Arr} (e : ofNatural P h = ofNatural P' h') (i : h.atleast1d = h) (i' : h'.atleast1d = h') :
    P = P' ∧ h = h' := by
  simp only [ofNatural, init, Gaussian.mk.injEq, Option.some.injEq] at e
  exact ⟨e.2.2.2.1, by rw [← i, ← i']; exact e.2.2.2.2.1⟩

/-- If multiplying with `a` leaves a value as it was, `a` has natural parameters zero (the symmetric part of the precision). -/
theorem mul_fix {f a : Gaussian} (hf : Natural f) (h : f.mul env a = .ok f) {Pa ha : Arr} (na : Nats env a Pa ha) :
    (∀ i j, Pa.bget i j + Pa.bget j i = 0) ∧ ∀ i j, ha.bget i j = 0 := by
  obtain ⟨P, k, e, i, ⟨n2, sy⟩, sq, F1, F2⟩ := hf
  have nf : Nats env f P k := by rw [e, ← i]; simpa only [atleast1d_idem] using nats_ofNatural P k.atleast1d
  obtain ⟨P', k', e', i', -, -, -, -, b1, b2⟩ := mul_entries h nf na n2
  obtain ⟨rfl, rfl⟩ := ofNatural_inj (e.symm.trans e') i i'
  refine ⟨fun x y => ?_, fun x y => ?_⟩
  · have := b1 F1 x y
    rw [sy F1 y x] at this
    linarith
  · have := b2 F2 x y
    linarith

/-- Multiplying with natural parameters zero leaves a value as it was, unless the shapes are stretched. -/
theorem mul_unit {f a F : Gaussian} {P k PF kF : Arr} (e : f = ofNatural P k) (i : k.atleast1d = k) (n2 : P.ndim = 2)
    (sy : P.Full → P.Symm) (F1 : P.Full) (F2 : k.Full) (h : f.mul env a = .ok F)
    (e' : F = ofNatural PF kF) (i' : kF.atleast1d = kF) (s1 : SameShape P PF) (s2 : SameShape k kF) {Pa ha : Arr} (na : Nats env a Pa ha)
    (z1 : ∀ i j, Pa.bget i j + Pa.bget j i = 0) (z2 : ∀ i j, ha.bget i j = 0) : F = f := by
  have nf : Nats env f P k := by rw [e, ← i]; simpa only [atleast1d_idem] using nats_ofNatural P k.atleast1d
  obtain ⟨P', k', e'', i'', -, -, -, -, b1, b2⟩ := mul_entries h nf na n2
  obtain ⟨rfl, rfl⟩ := ofNatural_inj (e'.symm.trans e'') i' i''
  rw [e', e]
  refine natural_eq s1.symm s2.symm (fun x y => ?_) fun x y => ?_
  · rw [b1 (s1.full.1 F1)]
    have := z1 x y
    rw [sy F1 y x]
    linarith
  · rw [b2 (s2.full.1 F2), z2, add_zero]

/-- The parameters of `g` fit into those of `g'`. -/
def ShapeLe (env : Env) (g g' : Gaussian) : Prop :=
  ∀ P h, Nats env g P h → P.ndim = 2 → ∃ P' h', Nats env g' P' h' ∧ P'.ndim = 2 ∧ Fits P P' ∧ Fits h h'

theorem ShapeLe.refl (g : Gaussian) : ShapeLe env g g := fun P h n d => ⟨P, h, n, d, Fits.refl _, Fits.refl _⟩

theorem ShapeLe.trans {a b c : Gaussian} (h : ShapeLe env a b) (k : ShapeLe env b c) : ShapeLe env a c := by
  intro P x n d
  obtain ⟨P1, x1, n1, d1, f1, g1⟩ := h P x n d
  obtain ⟨P2, x2, n2, d2, f2, g2⟩ := k P1 x1 n1 d1
  exact ⟨P2, x2, n2, d2, f1.trans f2, g1.trans g2⟩

theorem mul_shapeLe {a b c : Gaussian} (h : a.mul env b = .ok c) : ShapeLe env a c := by
  intro P x n d
  obtain ⟨Pa, ha, Pb, hb, S, P', k, na, nb, -⟩ := mul_nats h
  obtain ⟨rfl, rfl⟩ := n.inj na
  obtain ⟨P1, k1, e, i, f1, f2, -⟩ := mul_entries h na nb d
  have d1 : P1.ndim = 2 := le_antisymm (ndim_le _) (d ▸ f1.1)
  exact ⟨P1, k1, by rw [e]; simpa only [i] using nats_ofNatural P1 k1, d1, f1, f2⟩

theorem nats_of_eq {g : Gaussian} {P k : Arr} (e : g = ofNatural P k) (i : k.atleast1d = k) : Nats env g P k := by
  rw [e]; simpa only [i] using nats_ofNatural P k

/-- A product with natural parameters zero that is not stretched. -/
theorem mul_unit_le {m b M : Gaussian} (hm : Natural m) (h : m.mul env b = .ok M) (hle : ShapeLe env M m) {Pb hb : Arr}
    (nb : Nats env b Pb hb) (z1 : ∀ i j, Pb.bget i j + Pb.bget j i = 0) (z2 : ∀ i j, hb.bget i j = 0) : M = m := by
  obtain ⟨P, k, e, i, ⟨n2, sy⟩, -, F1, F2⟩ := hm
  have nm := nats_of_eq (env := env) e i
  obtain ⟨P', k', e', i', f1, f2, -⟩ := mul_entries h nm nb n2
  have n' := nats_of_eq (env := env) e' i'
  obtain ⟨P1, k1, n1, -, g1, g2⟩ := hle P' k' n' (le_antisymm (ndim_le _) (n2 ▸ f1.1))
  obtain ⟨rfl, rfl⟩ := nm.inj n1
  exact mul_unit e i n2 sy F1 F2 h e' i' (f1.antisymm g1) (f2.antisymm g2) nb z1 z2

/-- If a product with `b` leaves `m` as it was, so does every product with parameters zero of the shapes of those of `b`. -/
theorem mul_unit_like {m b b' : Gaussian} (hm : Natural m) (h : m.mul env b = .ok m) {Pb hb Pb' hb' : Arr} (nb : Nats env b Pb hb)
    (nb' : Nats env b' Pb' hb') (s1 : SameShape Pb Pb') (s2 : SameShape hb hb') (z1 : ∀ i j, Pb'.bget i j + Pb'.bget j i = 0)
    (z2 : ∀ i j, hb'.bget i j = 0) : m.mul env b' = .ok m := by
  obtain ⟨P, k, e, i, ⟨n2, sy⟩, -, F1, F2⟩ := hm
  have nm := nats_of_eq (env := env) e i
  obtain ⟨c', P1, k1, P2, k2, h', e1, e2, i1, i2, t1, t2⟩ := mul_like h nm nb nm nb' (SameShape.refl _) (SameShape.refl _) s1 s2
  obtain ⟨rfl, rfl⟩ := ofNatural_inj (e.symm.trans e1) i i1
  rw [h', mul_unit e i n2 sy F1 F2 h' e2 i2 t1 t2 nb' z1 z2]

/-- A power update that returns the old factor returns the old marginal, and does so with every other damping factor. -/
theorem power_fix {nd : Node} {s f m M : Gaussian} {γ : ℝ} (hf : Natural f) (hm : Natural m) (hγ : nd.damping = some γ) (h0 : γ ≠ 0)
    (h : nd.powerUpdate env s f m = .ok (f, M)) (hle : ShapeLe env M m) :
    M = m ∧ (∃ Ps hs Pm hm, Nats env s Ps hs ∧ Nats env m Pm hm ∧ (∀ i j, (Ps.bget i j + Ps.bget j i) / 2 = Pm.bget i j) ∧
        ∀ i j, hs.bget i j = hm.bget i j) ∧
      ∀ (γ' : ℝ) (nd' : Node), nd'.damping = some γ' → nd'.power = nd.power → nd'.powerUpdate env s f m = .ok (f, m) := by
  obtain ⟨ratio, a, b, γ1, α, hγ1, hα, hα0, h1, h2, h3, h4, h5, hv⟩ := Node.powerUpdate_ok h
  obtain rfl : γ = γ1 := by rw [hγ] at hγ1; exact Option.some.inj hγ1
  obtain ⟨Ps, hs, Pm, hm', Pr, kr, ns, nm, dP, dh, nr⟩ := truediv_nats h1
  obtain ⟨P1, x1, n1, na⟩ := pow_nats h2
  obtain ⟨rfl, rfl⟩ := nr.inj n1
  obtain ⟨P2, x2, n2, nb⟩ := pow_nats h4
  obtain ⟨rfl, rfl⟩ := nr.inj n2
  obtain ⟨z1, z2⟩ := mul_fix hf h3 na
  simp only [bget_smul, atleast1d_bget, ← mul_add, mul_eq_zero, h0, false_or] at z1 z2
  have y1 : ∀ c : ℝ, ∀ i j, (Pr.smul c).bget i j + (Pr.smul c).bget j i = 0 := fun c i j => by
    rw [bget_smul, bget_smul, ← mul_add, z1, mul_zero]
  have y2 : ∀ c : ℝ, ∀ i j, ((kr.atleast1d).smul c).atleast1d.bget i j = 0 := fun c i j => by
    rw [atleast1d_bget, bget_smul, atleast1d_bget, z2, mul_zero]
  have hM : M = m := mul_unit_le hm h5 hle nb (y1 _) (y2 _)
  subst hM
  refine ⟨rfl, ⟨Ps, hs, Pm, hm', ns, nm, ?_, ?_⟩, fun γ' nd' hd hp => ?_⟩
  · obtain ⟨P, k, e, i, ⟨n2, sy⟩, -, F1, F2⟩ := hm
    obtain ⟨rfl, rfl⟩ := (nats_of_eq (env := env) e i).inj nm
    have hPr : Pr.Full := by
      obtain ⟨Q, l, e', i', -, -, g1, -⟩ := mul_entries h5 nm nb n2
      obtain ⟨rfl, rfl⟩ := ofNatural_inj (e.symm.trans e') i i'
      exact (smul_full _ _).1 (g1.1 F1).2
    obtain ⟨-, -, b1⟩ := zip_bget dP
    intro x y
    have := z1 x y
    rw [b1 hPr, b1 hPr, sy F1 y x] at this
    linarith
  · obtain ⟨P, k, e, i, ⟨n2, sy⟩, -, F1, F2⟩ := hm
    obtain ⟨rfl, rfl⟩ := (nats_of_eq (env := env) e i).inj nm
    have hkr : kr.Full := by
      obtain ⟨Q, l, e', i', -, -, -, g2, -⟩ := mul_entries h5 nm nb n2
      obtain ⟨rfl, rfl⟩ := ofNatural_inj (e.symm.trans e') i i'
      have := (g2.1 F2).2
      simpa only [atleast1d_full, smul_full] using this
    obtain ⟨-, -, b1⟩ := zip_bget dh
    intro x y
    have := z2 x y
    rw [b1 hkr] at this
    linarith
  · obtain ⟨a', e1⟩ : ∃ a', ratio.pow env γ' = .ok a' := ⟨_, pow_ok nr.1 nr.2 _⟩
    obtain ⟨b', e2⟩ : ∃ b', ratio.pow env (γ' / α) = .ok b' := ⟨_, pow_ok nr.1 nr.2 _⟩
    obtain ⟨P3, x3, n3, na'⟩ := pow_nats e1
    obtain ⟨rfl, rfl⟩ := nr.inj n3
    obtain ⟨P4, x4, n4, nb'⟩ := pow_nats e2
    obtain ⟨rfl, rfl⟩ := nr.inj n4
    have t : ∀ c d : ℝ, ∀ a : Arr, SameShape (a.smul c) (a.smul d) := fun c d a => (smul_shape c a).trans (smul_shape d a).symm
    have e3 : f.mul env a' = .ok f := mul_unit_like hf h3 na na' (t _ _ _) (t _ _ _).atleast1d (y1 _) (y2 _)
    have e4 : M.mul env b' = .ok M := mul_unit_like hm h5 nb nb' (t _ _ _) (t _ _ _).atleast1d (y1 _) (y2 _)
    unfold Node.powerUpdate
    simp only [hd, hp, hα, attr, ok_bind, h1, e1, e2, e3, e4, pyDiv, if_neg hα0, hv, py_pure]

/-- The same for the guarded block of the forward update. -/
theorem fwd_fix {nd : Node} {proj : ProjTrans} {c M : Gaussian} {γ : ℝ} (hf : Natural nd.fwdFactor) (hm : Natural nd.marginal)
    (hγ : nd.damping = some γ) (h0 : γ ≠ 0) (h : Node.fwdGuarded env nd proj c = .ok (nd.fwdFactor, M)) (hle : ShapeLe env M nd.marginal) :
    M = nd.marginal ∧ (∃ s Ps hs Pf hf, proj nd.transFunc c = .ok s ∧ Nats env s Ps hs ∧ Nats env nd.fwdFactor Pf hf ∧
        (∀ i j, (Ps.bget i j + Ps.bget j i) / 2 = Pf.bget i j) ∧ ∀ i j, hs.bget i j = hf.bget i j) ∧
      ∀ γ', Node.fwdGuarded env { nd with damping := some γ' } proj c = .ok (nd.fwdFactor, nd.marginal) := by
  obtain ⟨s, a, b, d, k, γ1, α, hp, hvs, hγ1, hα, hα0, h1, h2, h3, h4, h5, h6, hv⟩ := Node.fwdGuarded_ok h
  obtain rfl : γ = γ1 := by rw [hγ] at hγ1; exact Option.some.inj hγ1
  obtain ⟨Pf, kf, e, i, ⟨n2, sy⟩, sq, F1, F2⟩ := hf
  have nf := nats_of_eq (env := env) e i
  obtain ⟨P1, x1, n1, na⟩ := pow_nats h1
  obtain ⟨rfl, rfl⟩ := nf.inj n1
  obtain ⟨Ps, hs, ns, nb⟩ := pow_nats h2
  have d2 : (Pf.smul (1 - γ)).ndim = 2 := by rw [smul_ndim, n2]
  obtain ⟨Q, l, e', i', -, -, g1, g2, b1, b2⟩ := mul_entries h3 na nb d2
  obtain ⟨rfl, rfl⟩ := ofNatural_inj (e.symm.trans e') i i'
  have z1 : ∀ i j, (Ps.bget i j + Ps.bget j i) / 2 = Pf.bget i j := by
    intro x y
    have := b1 F1 x y
    simp only [bget_smul] at this
    rw [sy F1 y x] at this
    have h' : γ * ((Ps.bget x y + Ps.bget y x) / 2 - Pf.bget x y) = 0 := by linarith
    rcases mul_eq_zero.1 h' with h' | h'
    · exact absurd h' h0
    · linarith
  have z2 : ∀ i j, hs.bget i j = kf.bget i j := by
    intro x y
    have := b2 F2 x y
    simp only [bget_smul, atleast1d_bget] at this
    have h' : γ * (hs.bget x y - kf.bget x y) = 0 := by linarith
    rcases mul_eq_zero.1 h' with h' | h'
    · exact absurd h' h0
    · linarith
  obtain ⟨P4, x4, P5, x5, Pd, kd, n4, n5, dP, dh, nd'⟩ := truediv_nats h4
  obtain ⟨rfl, rfl⟩ := nf.inj n4
  obtain ⟨rfl, rfl⟩ := nf.inj n5
  obtain ⟨P6, x6, n6, nk⟩ := pow_nats h5
  obtain ⟨rfl, rfl⟩ := nd'.inj n6
  have w1 : ∀ i j, Pd.bget i j = 0 := fun x y => by
    obtain ⟨g, -, b⟩ := zip_bget dP
    rw [b (g.2 ⟨F1, F1⟩), sub_self]
  have w2 : ∀ i j, kd.bget i j = 0 := fun x y => by
    obtain ⟨g, -, b⟩ := zip_bget dh
    rw [b (g.2 ⟨F2, F2⟩), sub_self]
  have hM : M = nd.marginal := mul_unit_le hm h6 hle nk (fun x y => by simp [w1]) fun x y => by simp [atleast1d_bget, w2]
  refine ⟨hM, ⟨s, Ps, hs, Pf, kf, hp, ns, nf, z1, z2⟩, fun γ' => ?_⟩
  obtain ⟨a', e1⟩ : ∃ a', nd.fwdFactor.pow env (1 - γ') = .ok a' := ⟨_, pow_ok nf.1 nf.2 _⟩
  obtain ⟨b', e2⟩ : ∃ b', s.pow env γ' = .ok b' := ⟨_, pow_ok ns.1 ns.2 _⟩
  obtain ⟨P7, x7, n7, na'⟩ := pow_nats e1
  obtain ⟨rfl, rfl⟩ := nf.inj n7
  obtain ⟨P8, x8, n8, nb'⟩ := pow_nats e2
  obtain ⟨rfl, rfl⟩ := ns.inj n8
  have t : ∀ c d : ℝ, ∀ a : Arr, SameShape (a.smul c) (a.smul d) := fun c d a => (smul_shape c a).trans (smul_shape d a).symm
  obtain ⟨c', Q1, l1, Q2, l2, e3, e4, e5, i4, i5, t1, t2⟩ := mul_like h3 na nb na' nb' (t _ _ _) (t _ _ _).atleast1d (t _ _ _) (t _ _ _).atleast1d
  obtain ⟨rfl, rfl⟩ := ofNatural_inj (e.symm.trans e4) i i4
  obtain ⟨Q3, l3, e6, i6, -, -, -, -, b3, b4⟩ := mul_entries e3 na' nb' (by rw [smul_ndim, n2])
  obtain ⟨rfl, rfl⟩ := ofNatural_inj (e5.symm.trans e6) i5 i6
  have e7 : c' = nd.fwdFactor := by
    rw [e5, e]
    refine natural_eq t1.symm t2.symm (fun x y => ?_) fun x y => ?_
    · rw [b3 (t1.full.1 F1)]
      simp only [bget_smul]
      rw [sy F1 y x, ← z1 x y]; ring
    · rw [b4 (t2.full.1 F2)]
      simp only [bget_smul, atleast1d_bget, z2]; ring
  rw [e7] at e3
  rw [hM] at h6 hv
  unfold Node.fwdGuarded
  simp only [hp, hvs, attr, ok_bind, e1, e2, e3, hα, pyDiv, if_neg hα0, h4, h5, h6, hv, py_pure]

end Gaussian

end Verif
