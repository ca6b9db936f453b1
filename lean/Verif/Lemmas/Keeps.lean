import Verif.Lemmas.Rerun

/-!
# What stays true of the table of experiments throughout a sweep
-/

namespace Verif

variable {base : Tables} {cfg : Config}

/-- The computation keeps a statement about the rows of experiments, for the rows it sees and for those in the file at any moment. -/
def Keeps (base : Tables) (cfg : Config) (I : List Row → Prop) {α : Type} (K : PyM Conn α) : Prop :=
  ∀ c w f, Rep base cfg c w f → I w.2 → I f.2 → ∃ w' f', Rep base cfg (K c).2 w' f' ∧ I w'.2 ∧ I f'.2 ∧
    ∃ new, (K c).2.history = c.history ++ new ∧ ∀ t ∈ new, ∃ g : St, I g.2 ∧ t = tabs base cfg g

theorem Keeps.still {I : List Row → Prop} {α : Type} {K : PyM Conn α} (h : ∀ c, (K c).2 = c) : Keeps base cfg I K :=
  fun c w f hr hw hf => ⟨w, f, by rw [h]; exact hr, hw, hf, [], by rw [h, List.append_nil], by simp⟩

theorem Keeps.bind {I : List Row → Prop} {α β : Type} {X : PyM Conn α} {K : α → PyM Conn β} (hX : Keeps base cfg I X)
    (hK : ∀ a, Keeps base cfg I (K a)) : Keeps base cfg I (X >>= K) := by
  intro c w f hr hw hf
  obtain ⟨w1, f1, r1, iw, jf, new, n1, n2⟩ := hX c w f hr hw hf
  rw [PyM.bind_run]
  rcases hx : X c with ⟨e | a, c'⟩
  · rw [hx] at r1 n1
    exact ⟨w1, f1, r1, iw, jf, new, n1, n2⟩
  · rw [hx] at r1 n1
    obtain ⟨w2, f2, r2, iw2, jf2, new', m1, m2⟩ := hK a c' w1 f1 r1 iw jf
    refine ⟨w2, f2, r2, iw2, jf2, new ++ new', ?_, fun t ht => (List.mem_append.1 ht).elim (n2 t) (m2 t)⟩
    show (K a c').2.history = _
    rw [m1, n1, List.append_assoc]

theorem keeps_setting {I : List Row → Prop} (env : Env) (jac : Jac) (draw : Draw) (x y : List Arr) (seed : ℤ) (override : Bool)
    (s : Setting) (hI : ∀ rows, I rows → ∀ j, I (addRows 5 rows ((powerRows env jac draw cfg x y seed s).1.take j))) :
    Keeps base cfg I (sweepSetting env jac draw cfg x y seed override s) := by
  intro c w f h hw hf
  have hc : c.work cfg.expTable = some (expTable w.2) := by rw [h.1, tabs_exp]
  by_cases hr : override = true ∨ ¬ ∃ q ∈ w.2, Marks seed s q
  · have hs := sweepSetting_run env jac draw cfg x y seed override s hc hr
    set rs := (powerRows env jac draw cfg x y seed s).1 with hrs
    have e1 := commitRows_work hc rs
    have e2 := commitRows_saved hc rs
    obtain ⟨new, n1, n2, -⟩ := commitRows_history hc rs
    rw [h.1, tabs_update_exp] at e1 e2
    rw [h.2] at e2
    simp only [h.1, tabs_update_exp, h.2] at n2
    have full : I (addRows 5 w.2 rs) := by
      have := hI w.2 hw rs.length
      rwa [List.take_length] at this
    rw [hs]
    refine ⟨(w.1, addRows 5 w.2 rs), if rs = [] then f else (w.1, addRows 5 w.2 rs), ⟨e1, e2.trans (by split <;> rfl)⟩, full, ?_,
      new, n1, fun t ht => ?_⟩
    · split
      · exact hf
      · exact full
    · rcases n2 t ht with e | ⟨j, -, -, e⟩
      · exact ⟨f, hf, e⟩
      · exact ⟨(w.1, addRows 5 w.2 (rs.take j)), hI w.2 hw j, e⟩
  · obtain ⟨h1, h2⟩ := not_or.1 hr
    have ho : override = false := by simpa using h1
    subst ho
    rw [sweepSetting_skip env jac draw cfg x y seed s hc (not_not.1 h2)]
    exact ⟨w, f, h, hw, hf, [], by simp, by simp⟩

theorem keeps_settings {I : List Row → Prop} (env : Env) (jac : Jac) (draws : Draws) (x y : List Arr) (seed : ℤ) (override : Bool)
    (ss : List Setting)
    (hI : ∀ s ∈ ss, ∀ draw rows, I rows → ∀ j, I (addRows 5 rows ((powerRows env jac draw cfg x y seed s).1.take j)))
    (ran : List Setting) : Keeps base cfg I (sweepSettings env jac draws cfg x y seed override ran ss) := by
  induction ss generalizing ran with
  | nil => exact Keeps.still fun _ => rfl
  | cons s ss ih =>
    exact (keeps_setting env jac (draws seed ran) x y seed override s (hI s (by simp) _)).bind fun called =>
      ih (fun s hs => hI s (by simp [hs])) _

theorem keeps_dyn {I : List Row → Prop} (hne : cfg.dynTable ≠ cfg.expTable) (data : List (Arr × Arr)) (seed : ℤ) :
    Keeps base cfg I (Db.insertDynamicsData cfg.dynTable data seed) := by
  intro c w f h hw hf
  obtain ⟨c', h1, h2, h3, k, h4⟩ := insertDynamics_run cfg.dynTable seed data 0 (c := c) (rows := w.1) (by rw [h.1, tabs_dyn hne])
  rw [show Db.insertDynamicsData cfg.dynTable data seed c = (.ok (), c') from h1]
  rw [h.1, tabs_update_dyn hne] at h2
  exact ⟨_, f, ⟨h2, h3.trans h.2⟩, hw, hf, List.replicate k c.saved, h4, fun t ht => ⟨f, hf, (List.eq_of_mem_replicate ht).trans h.2⟩⟩

theorem keeps_sweep {I : List Row → Prop} (hne : cfg.dynTable ≠ cfg.expTable) (env : Env) (jac : Jac) (draws : Draws)
    (ss : List Setting) (override : Bool) (seeds : List ℤ)
    (hI : ∀ s ∈ ss, ∀ seed draw x y rows, I rows → ∀ j, I (addRows 5 rows ((powerRows env jac draw cfg x y seed s).1.take j))) :
    Keeps base cfg I (sweepSeeds env jac draws cfg ss override seeds) := by
  induction seeds with
  | nil => exact Keeps.still fun _ => rfl
  | cons seed seeds ih =>
    unfold sweepSeeds
    refine Keeps.bind (Keeps.still fun _ => rfl) fun data => (keeps_dyn hne data seed).bind fun _ => ?_
    split
    · exact Keeps.still fun _ => rfl
    · exact (keeps_settings env jac draws _ _ seed override ss (fun s hs draw rows => hI s hs seed draw _ _ rows) []).bind fun _ => ih

/-- Whatever the moment at which the process dies, and at the end, the rows of experiments in the file satisfy what sweeps keep. -/
theorem sweep_keeps {I : List Row → Prop} (hne : cfg.dynTable ≠ cfg.expTable) (env : Env) (jac : Jac) (draws : Draws)
    (seeds : List ℤ) (transTypes : List String) (powers dampings : List ℝ) (override : Bool)
    (hI : ∀ s ∈ settings transTypes powers dampings, ∀ seed draw x y rows, I rows → ∀ j,
      I (addRows 5 rows ((powerRows env jac draw cfg x y seed s).1.take j)))
    {file : Tables} {drows erows : List Row} (h : Holds cfg file (drows, erows)) (h0 : I erows) {f : Tables}
    (hf : f ∈ (sweepMain env jac draws cfg seeds transTypes powers dampings override (Conn.connect file)).2.history ∨
      f = (sweepMain env jac draws cfg seeds transTypes powers dampings override (Conn.connect file)).2.saved) :
    ∃ drows' erows', Holds cfg f (drows', erows') ∧ I erows' := by
  obtain ⟨c, h1, h2, h3⟩ := create_run hne h
  have e : sweepMain env jac draws cfg seeds transTypes powers dampings override (Conn.connect file) =
      sweepSeeds env jac draws cfg (settings transTypes powers dampings) override seeds c := h1 _
  obtain ⟨w', f', r, -, i2, new, n1, n2⟩ := keeps_sweep (base := file) hne env jac draws (settings transTypes powers dampings) override
    seeds hI c (drows, erows) (drows, erows) h2 h0 h0
  have hold : ∀ st : St, Holds cfg (tabs file cfg st) st := fun st => ⟨.inl (tabs_dyn hne st), .inl (tabs_exp st)⟩
  rw [e, n1, h3, r.2] at hf
  rcases hf with hf | rfl
  · simp only [List.cons_append, List.nil_append, List.mem_cons] at hf
    rcases hf with rfl | rfl | rfl | hf
    · exact ⟨_, _, h, h0⟩
    · exact ⟨drows, erows, ⟨.inl (Function.update_self ..), by rw [Function.update_of_ne hne.symm]; exact h.2⟩, h0⟩
    · exact ⟨_, _, hold _, h0⟩
    · obtain ⟨g, hg, rfl⟩ := n2 f hf
      exact ⟨_, _, hold g, hg⟩
  · exact ⟨_, _, hold f', i2⟩

end Verif
