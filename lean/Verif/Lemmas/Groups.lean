import Verif.Lemmas.Rerun
import Verif.Lemmas.Keyed

/-! Rows that are inserted in groups, one transaction per group. -/

namespace Verif

section

variable (cols : List String) (k : ℕ) (name : String)

/-- Inserting rows without commit. -/
noncomputable def putRows : Conn → List Row → List Row → Conn
  | c, _, [] => c
  | c, rows, r :: rs => putRows (c.put name (keyedTable cols k (addRow k rows r))) (addRow k rows r) rs

/-- Inserting groups of rows with a commit after each. -/
noncomputable def commitGroups : Conn → List Row → List (List Row) → Conn
  | c, _, [] => c
  | c, rows, g :: gs => commitGroups (putRows cols k name c rows g).sync (addRows k rows g) gs

end

variable {cols : List String} {k : ℕ} {name : String}

theorem putRows_spec {c : Conn} {rows : List Row} (h : c.work name = some (keyedTable cols k rows)) (rs : List Row) :
    (putRows cols k name c rows rs).work = Function.update c.work name (some (keyedTable cols k (addRows k rows rs))) ∧
      (putRows cols k name c rows rs).saved = c.saved ∧
      (putRows cols k name c rows rs).history = c.history ++ List.replicate rs.length c.saved := by
  induction rs generalizing c rows with
  | nil => exact ⟨by rw [putRows, addRows_nil, ← h, Function.update_eq_self], rfl, by simp [putRows]⟩
  | cons r rs ih =>
    obtain ⟨h1, h2, h3⟩ := ih (c := c.put name (keyedTable cols k (addRow k rows r))) (rows := addRow k rows r)
      (Function.update_self ..)
    refine ⟨?_, h2, ?_⟩
    · rw [putRows, h1]
      show Function.update (Function.update _ _ _) _ _ = _
      rw [Function.update_idem]; rfl
    · rw [putRows, h3]
      show (c.history ++ [c.saved]) ++ List.replicate rs.length c.saved = _
      rw [List.append_assoc]; rfl

theorem putSync_work {c : Conn} {rows : List Row} (h : c.work name = some (keyedTable cols k rows)) (g : List Row) :
    (putRows cols k name c rows g).sync.work = Function.update c.work name (some (keyedTable cols k (addRows k rows g))) :=
  (putRows_spec h g).1

theorem commitGroups_work {c : Conn} {rows : List Row} (h : c.work name = some (keyedTable cols k rows)) (gs : List (List Row)) :
    (commitGroups cols k name c rows gs).work =
      Function.update c.work name (some (keyedTable cols k (addRows k rows gs.flatten))) := by
  induction gs generalizing c rows with
  | nil => rw [commitGroups, List.flatten_nil, addRows_nil, ← h, Function.update_eq_self]
  | cons g gs ih =>
    rw [commitGroups, ih (by rw [putSync_work h, Function.update_self]), putSync_work h, Function.update_idem, List.flatten_cons,
      addRows_append]

theorem commitGroups_saved {c : Conn} {rows : List Row} (h : c.work name = some (keyedTable cols k rows)) (gs : List (List Row)) :
    (commitGroups cols k name c rows gs).saved =
      if gs = [] then c.saved else Function.update c.work name (some (keyedTable cols k (addRows k rows gs.flatten))) := by
  induction gs generalizing c rows with
  | nil => rfl
  | cons g gs ih =>
    rw [commitGroups, ih (by rw [putSync_work h, Function.update_self]), putSync_work h, Function.update_idem,
      if_neg (List.cons_ne_nil _ _), List.flatten_cons, addRows_append]
    split
    · next hn => rw [hn]; exact putSync_work h g
    · rfl

/-- The contents of the file meanwhile: as before, or with the first `j` groups. -/
theorem commitGroups_history {c : Conn} {rows : List Row} (h : c.work name = some (keyedTable cols k rows)) (gs : List (List Row)) :
    ∃ new, (commitGroups cols k name c rows gs).history = c.history ++ new ∧
      (∀ f ∈ new, f = c.saved ∨ ∃ j, 1 ≤ j ∧ j ≤ gs.length ∧
        f = Function.update c.work name (some (keyedTable cols k (addRows k rows (gs.take j).flatten)))) ∧
      ∀ j, 1 ≤ j → j ≤ gs.length →
        Function.update c.work name (some (keyedTable cols k (addRows k rows (gs.take j).flatten))) ∈ new := by
  induction gs generalizing c rows with
  | nil => exact ⟨[], by simp [commitGroups], by simp, fun j h1 h2 => absurd h1 (by simp at h2; omega)⟩
  | cons g gs ih =>
    obtain ⟨p1, p2, p3⟩ := putRows_spec h g
    obtain ⟨new, h1, h2, h3⟩ := ih (c := (putRows cols k name c rows g).sync) (rows := addRows k rows g)
      (by rw [putSync_work h, Function.update_self])
    have hs : (putRows cols k name c rows g).sync.saved =
        Function.update c.work name (some (keyedTable cols k (addRows k rows g))) := p1
    refine ⟨List.replicate g.length c.saved ++ (putRows cols k name c rows g).sync.saved :: new, ?_, fun f hf => ?_,
      fun j hj hj' => ?_⟩
    · rw [commitGroups, h1]
      show ((putRows cols k name c rows g).history ++ [_]) ++ new = _
      rw [p3]
      simp only [List.append_assoc, List.cons_append, List.nil_append]
      rfl
    · rcases List.mem_append.1 hf with hf | hf
      · exact .inl (List.eq_of_mem_replicate hf)
      · rcases List.mem_cons.1 hf with rfl | hf
        · exact .inr ⟨1, le_rfl, by simp, by rw [hs]; simp⟩
        · rcases h2 f hf with e | ⟨j, hj, hj', e⟩
          · exact .inr ⟨1, le_rfl, by simp, by rw [e, hs]; simp⟩
          · refine .inr ⟨j + 1, by omega, by simpa using hj', ?_⟩
            rw [e, putSync_work h, Function.update_idem, List.take_succ_cons, List.flatten_cons, addRows_append]
    · refine List.mem_append_right _ ?_
      rcases j with _ | _ | j
      · omega
      · rw [hs]; simp
      · have := h3 (j + 1) (by omega) (by simpa using hj')
        rw [putSync_work h, Function.update_idem] at this
        rw [List.take_succ_cons, List.flatten_cons, addRows_append]
        exact List.mem_cons_of_mem _ this

/-- Starting over after the first `j` groups gives the same table. -/
theorem addGroups_restart (k : ℕ) (rows : List Row) (gs : List (List Row)) (j : ℕ) :
    addRows k (addRows k rows (gs.take j).flatten) gs.flatten = addRows k rows gs.flatten := by
  have h : ∀ p q : List Row, addRows k (addRows k rows p) (p ++ q) = addRows k rows (p ++ q) := fun p q => by
    rw [addRows_append, addRows_again List.prefix_rfl, addRows_append]
  have := h (gs.take j).flatten (gs.drop j).flatten
  rwa [← List.flatten_append, List.take_append_drop] at this

/-! ## Plans -/

/-- One part of a sweep: simulated rows, or the groups of rows of a setting, skipped if a marking row is stored; `stop` ends the
sweep. -/
inductive GBlock
  | dyn (rows : List Row)
  | set (marks : Row → Prop) (groups : List (List Row)) (stop : Bool)

open Classical in
/-- Runs a plan on (work, saved). -/
noncomputable def gexec (k : ℕ) : List GBlock → St × St → St × St
  | [], s => s
  | .dyn rs :: bs, (w, f) => gexec k bs ((addRows 2 w.1 rs, w.2), f)
  | .set m gs stop :: bs, (w, f) =>
    if ∃ r ∈ w.2, m r then gexec k bs (w, f)
    else if stop then ((w.1, addRows k w.2 gs.flatten), if gs = [] then f else (w.1, addRows k w.2 gs.flatten))
    else gexec k bs ((w.1, addRows k w.2 gs.flatten), if gs = [] then f else (w.1, addRows k w.2 gs.flatten))

/-- `g` is one of the contents the file has while the plan is run with work `w` (other than its first content). -/
inductive GFiles (k : ℕ) : List GBlock → St → St → Prop
  | dyn {rs bs w g} : GFiles k bs (addRows 2 w.1 rs, w.2) g → GFiles k (.dyn rs :: bs) w g
  | skip {m gs stop bs w g} : (∃ r ∈ w.2, m r) → GFiles k bs w g → GFiles k (.set m gs stop :: bs) w g
  | part {m gs stop bs w} (j : ℕ) : (¬ ∃ r ∈ w.2, m r) → 1 ≤ j → j ≤ gs.length →
      GFiles k (.set m gs stop :: bs) w (w.1, addRows k w.2 (gs.take j).flatten)
  | later {m gs bs w g} : (¬ ∃ r ∈ w.2, m r) → GFiles k bs (w.1, addRows k w.2 gs.flatten) g →
      GFiles k (.set m gs false :: bs) w g

theorem GFiles.prefix {k : ℕ} {bs : List GBlock} {w g : St} (h : GFiles k bs w g) : w.1 <+: g.1 ∧ w.2 <+: g.2 := by
  induction h with
  | dyn _ ih => exact ⟨(addRows_prefix 2 _ _).trans ih.1, ih.2⟩
  | skip _ _ ih => exact ih
  | part j _ _ _ => exact ⟨List.prefix_rfl, addRows_prefix k _ _⟩
  | later _ _ ih => exact ⟨ih.1, (addRows_prefix k _ _).trans ih.2⟩

/-- A marking row is always in the last group of its setting, and the sweep goes on after it. -/
def GBlock.Good : GBlock → Prop
  | .dyn _ => True
  | .set m gs stop => ∀ (i : ℕ) (g : List Row), gs[i]? = some g → (∃ r ∈ g, m r) → i + 1 = gs.length ∧ stop = false

/-- Starting the plan again on a file left by a crash gives the same result. -/
theorem gexec_rerun {k : ℕ} {bs : List GBlock} {w g : St} (h : GFiles k bs w g) (hg : ∀ b ∈ bs, b.Good) (f : St) :
    gexec k bs (g, g) = gexec k bs (w, f) := by
  induction h generalizing f with
  | @dyn rs bs w g h ih =>
    have e : addRows 2 g.1 rs = g.1 := addRows_again h.prefix.1
    simp only [gexec, e]
    exact ih (fun b hb => hg b (by simp [hb])) f
  | @skip m gs stop bs w g hm h ih =>
    have hm' : ∃ r ∈ g.2, m r := hm.imp fun r hr => ⟨h.prefix.2.subset hr.1, hr.2⟩
    simp only [gexec, if_pos hm, if_pos hm']
    exact ih (fun b hb => hg b (by simp [hb])) f
  | @part m gs stop bs w j hm h1 h2 =>
    have hgs : gs ≠ [] := fun e => by rw [e] at h2; simp at h2; omega
    by_cases hm' : ∃ r ∈ addRows k w.2 (gs.take j).flatten, m r
    · obtain ⟨r, hr, hmr⟩ := hm'
      have hr' : r ∈ (gs.take j).flatten := by
        by_contra hn
        exact hm ⟨r, (mem_addRows hr).resolve_right hn, hmr⟩
      obtain ⟨g, hgm, hrg⟩ := List.mem_flatten.1 hr'
      obtain ⟨i, hi, e⟩ := List.mem_iff_getElem.1 hgm
      rw [List.getElem_take] at e
      have hi' : i < j ∧ i < gs.length := by simpa using hi
      have := hg _ List.mem_cons_self i g (by rw [List.getElem?_eq_getElem hi'.2, e]) ⟨r, hrg, hmr⟩
      have hj : j = gs.length := by omega
      have hst : stop = false := this.2
      subst hst
      simp only [gexec, if_neg hm, if_pos (show ∃ r ∈ addRows k w.2 (gs.take j).flatten, m r from ⟨r, hr, hmr⟩), if_neg hgs, hj,
        List.take_length]
      rfl
    · have e := addGroups_restart k w.2 gs j
      simp only [gexec, if_neg hm, if_neg hm', if_neg hgs, e]
  | @later m gs bs w g hm h ih =>
    have e : addRows k g.2 gs.flatten = g.2 := addRows_again h.prefix.2
    have e' : (g.1, addRows k g.2 gs.flatten) = g := by rw [e]
    have hb : ∀ b ∈ bs, b.Good := fun b hb => hg b (by simp [hb])
    by_cases hm' : ∃ r ∈ g.2, m r
    · simp only [gexec, if_neg hm, if_pos hm']
      exact ih hb _
    · simp only [gexec, if_neg hm, if_neg hm', e', ite_self]
      exact ih hb _

/-! ## Sweeps carry out plans -/

section

variable (cols k) (base : Tables) (cfg : Config)

/-- The tables of a database, given the rows of the two tables of a sweep. -/
def gtabs (st : St) : Tables :=
  Function.update (Function.update base cfg.dynTable (some (dynTable st.1))) cfg.expTable (some (keyedTable cols k st.2))

/-- The connection sees `w` and the file holds `f`. -/
def GRep (c : Conn) (w f : St) : Prop := c.work = gtabs cols k base cfg w ∧ c.saved = gtabs cols k base cfg f

/-- A computation carries out a plan. -/
def GImpl (K : PyM Conn Unit) (bs : List GBlock) : Prop :=
  ∀ c w f, GRep cols k base cfg c w f → GRep cols k base cfg (K c).2 (gexec k bs (w, f)).1 (gexec k bs (w, f)).2 ∧
    ∃ new, (K c).2.history = c.history ++ new ∧
      ∀ t ∈ new, t = gtabs cols k base cfg f ∨ ∃ g, GFiles k bs w g ∧ t = gtabs cols k base cfg g

end

variable {base : Tables} {cfg : Config}

theorem gtabs_exp (st : St) : gtabs cols k base cfg st cfg.expTable = some (keyedTable cols k st.2) := Function.update_self ..

theorem gtabs_dyn (hne : cfg.dynTable ≠ cfg.expTable) (st : St) :
    gtabs cols k base cfg st cfg.dynTable = some (dynTable st.1) := by
  unfold gtabs
  rw [Function.update_of_ne hne, Function.update_self]

theorem gtabs_update_exp (st : St) (e : List Row) :
    Function.update (gtabs cols k base cfg st) cfg.expTable (some (keyedTable cols k e)) = gtabs cols k base cfg (st.1, e) := by
  unfold gtabs
  rw [Function.update_idem]

theorem gtabs_update_dyn (hne : cfg.dynTable ≠ cfg.expTable) (st : St) (d : List Row) :
    Function.update (gtabs cols k base cfg st) cfg.dynTable (some (dynTable d)) = gtabs cols k base cfg (d, st.2) := by
  unfold gtabs
  rw [Function.update_comm hne.symm, Function.update_idem]

theorem gimpl_pure : GImpl cols k base cfg (pure ()) [] := fun c w f h => ⟨h, [], by simp, by simp⟩

theorem gimpl_stop {K : PyM Conn Unit} (e : Err) (hK : ∀ c, K c = (.error e, c)) (bs : List GBlock) :
    GImpl cols k base cfg K (.set (fun _ => False) [] true :: bs) := fun c w f h => by
  rw [hK]
  simpa [gexec, addRows] using h

theorem gimpl_dyn (hne : cfg.dynTable ≠ cfg.expTable) (data : List (Arr × Arr)) (seed : ℤ) {K : PyM Conn Unit} {bs : List GBlock}
    (hK : GImpl cols k base cfg K bs) :
    GImpl cols k base cfg (do Db.insertDynamicsData cfg.dynTable data seed; K) (.dyn (dynRows seed 0 data) :: bs) := fun c w f h => by
  obtain ⟨c', h1, h2, h3, n, h4⟩ := insertDynamics_run cfg.dynTable seed data 0 (c := c) (rows := w.1)
    (by rw [h.1, gtabs_dyn hne])
  have h1' : Db.insertDynamicsData cfg.dynTable data seed c = (.ok (), c') := h1
  rw [h.1, gtabs_update_dyn hne] at h2
  obtain ⟨r1, new, r2, r3⟩ := hK c' _ f ⟨h2, h3.trans h.2⟩
  rw [PyM.bind_ok h1']
  refine ⟨r1, List.replicate n c.saved ++ new, by rw [r2, h4, List.append_assoc], fun t ht => ?_⟩
  rcases List.mem_append.1 ht with ht | ht
  · exact .inl ((List.eq_of_mem_replicate ht).trans h.2)
  · exact (r3 t ht).imp id fun ⟨g, hg, e⟩ => ⟨g, .dyn hg, e⟩

/-- Whether a setting that ends with `o` ends the sweep. -/
def ends (o : Py Bool) : Bool :=
  match o with
  | .ok _ => false
  | .error _ => true

/-- A setting that is skipped if marked and otherwise commits its groups. -/
theorem gimpl_setting {X : PyM Conn Bool} {marks : Row → Prop} {gs : List (List Row)} {o : Py Bool}
    (hskip : ∀ c rows, c.work cfg.expTable = some (keyedTable cols k rows) → (∃ r ∈ rows, marks r) → X c = (.ok false, c))
    (hrun : ∀ c rows, c.work cfg.expTable = some (keyedTable cols k rows) → (¬ ∃ r ∈ rows, marks r) →
      X c = (o, commitGroups cols k cfg.expTable c rows gs))
    {K : Bool → PyM Conn Unit} {bs : List GBlock} (hK : ∀ b, GImpl cols k base cfg (K b) bs) :
    GImpl cols k base cfg (X >>= K) (.set marks gs (ends o) :: bs) := fun c w f h => by
  have hc : c.work cfg.expTable = some (keyedTable cols k w.2) := by rw [h.1, gtabs_exp]
  by_cases hm : ∃ r ∈ w.2, marks r
  · rw [PyM.bind_ok (hskip c _ hc hm)]
    obtain ⟨r1, new, r2, r3⟩ := hK false c w f h
    refine ⟨?_, new, r2, fun t ht => (r3 t ht).imp id fun ⟨g, hg, e⟩ => ⟨g, .skip hm hg, e⟩⟩
    rw [gexec, if_pos hm]
    exact r1
  · have hs := hrun c _ hc hm
    have hw := commitGroups_work hc gs
    have hf := commitGroups_saved hc gs
    obtain ⟨new, n1, n2, -⟩ := commitGroups_history hc gs
    rw [h.1, gtabs_update_exp] at hw hf
    rw [h.2] at hf
    simp only [h.1, gtabs_update_exp, h.2] at n2
    have hrep : GRep cols k base cfg (commitGroups cols k cfg.expTable c w.2 gs) (w.1, addRows k w.2 gs.flatten)
        (if gs = [] then f else (w.1, addRows k w.2 gs.flatten)) := by
      refine ⟨hw, hf.trans ?_⟩
      split <;> rfl
    have hnew : ∀ (stop : Bool), ∀ t ∈ new, t = gtabs cols k base cfg f ∨ ∃ g, GFiles k (.set marks gs stop :: bs) w g ∧
        t = gtabs cols k base cfg g := fun stop t ht => by
      rcases n2 t ht with e | ⟨j, hj, hj', e⟩
      · exact .inl e
      · exact .inr ⟨_, .part j hm hj hj', e⟩
    cases o with
    | error e =>
      rw [PyM.bind_error hs]
      refine ⟨?_, new, n1, hnew _⟩
      rw [gexec, if_neg hm]
      exact hrep
    | ok b =>
      rw [PyM.bind_ok hs]
      obtain ⟨r1, new', r2, r3⟩ := hK b _ _ _ hrep
      refine ⟨?_, new ++ new', by rw [r2, n1, List.append_assoc], fun t ht => ?_⟩
      · rw [gexec, if_neg hm]
        simp only [ends, Bool.false_eq_true, if_false]
        exact r1
      · rcases List.mem_append.1 ht with ht | ht
        · exact hnew _ t ht
        · rcases r3 t ht with e | ⟨g, hg, e⟩
          · by_cases hnil : gs = []
            · rw [if_pos hnil] at e; exact .inl e
            · rw [if_neg hnil] at e
              refine .inr ⟨(w.1, addRows k w.2 (gs.take gs.length).flatten), ?_, ?_⟩
              · exact .part gs.length hm (List.length_pos_iff.2 hnil) le_rfl
              · rw [List.take_length]; exact e
          · exact .inr ⟨g, .later hm hg, e⟩

/-! ## Sweeps only add groups -/

section

variable (cols k) (base : Tables) (cfg : Config)

/-- A computation adds simulated rows and groups of rows satisfying `P`; the file holds a first part of them at any time. -/
def GGrow {α : Type} (P : List Row → Prop) (K : PyM Conn α) : Prop :=
  ∀ c w f, GRep cols k base cfg c w f → ∃ (ds : List Row) (gs : List (List Row)) (f' : St),
    GRep cols k base cfg (K c).2 (addRows 2 w.1 ds, addRows k w.2 gs.flatten) f' ∧
      (f' = f ∨ ∃ i j, f' = (addRows 2 w.1 (ds.take i), addRows k w.2 (gs.take j).flatten)) ∧
      (gs = [] → f' = f) ∧ (∀ g ∈ gs, P g) ∧
      ∃ new, (K c).2.history = c.history ++ new ∧ ∀ t ∈ new, t = gtabs cols k base cfg f ∨
        ∃ i j, t = gtabs cols k base cfg (addRows 2 w.1 (ds.take i), addRows k w.2 (gs.take j).flatten)

end

theorem ggrow_still {α : Type} {P : List Row → Prop} {K : PyM Conn α} (h : ∀ c, (K c).2 = c) : GGrow cols k base cfg P K :=
  fun c w f hr => ⟨[], [], f, by rw [h]; exact hr, .inl rfl, fun _ => rfl, by simp, [], by rw [h, List.append_nil], by simp⟩

theorem ggrow_bind {α β : Type} {P : List Row → Prop} {X : PyM Conn α} {K : α → PyM Conn β} (hX : GGrow cols k base cfg P X)
    (hK : ∀ a, GGrow cols k base cfg P (K a)) : GGrow cols k base cfg P (X >>= K) := by
  intro c w f h
  obtain ⟨ds, gs, f', h1, h2, h3, h4, new, h5, h6⟩ := hX c w f h
  rcases hx : X c with ⟨⟨e⟩ | ⟨a⟩, c'⟩
  · rw [PyM.bind_error hx]
    rw [hx] at h1 h5
    exact ⟨ds, gs, f', h1, h2, h3, h4, new, h5, h6⟩
  · rw [PyM.bind_ok hx]
    rw [hx] at h1 h5
    obtain ⟨ds', gs', f'', k1, k2, k3, k4, new', k5, k6⟩ := hK a c' _ f' h1
    have part : ∀ i j, (addRows 2 w.1 (ds.take i), addRows k w.2 (gs.take j).flatten) =
        (addRows 2 w.1 ((ds ++ ds').take (min i ds.length)), addRows k w.2 ((gs ++ gs').take (min j gs.length)).flatten) := by
      intro i j
      rw [List.take_append_of_le_length (min_le_right _ _), List.take_append_of_le_length (min_le_right _ _), ← List.take_eq_take_min,
        ← List.take_eq_take_min]
    have part' : ∀ i j, (addRows 2 (addRows 2 w.1 ds) (ds'.take i), addRows k (addRows k w.2 gs.flatten) (gs'.take j).flatten) =
        (addRows 2 w.1 ((ds ++ ds').take (ds.length + i)), addRows k w.2 ((gs ++ gs').take (gs.length + j)).flatten) := by
      intro i j
      rw [List.take_length_add_append, List.take_length_add_append, addRows_append, List.flatten_append, addRows_append]
    have hf' : f' = f ∨ ∃ i j, f' = (addRows 2 w.1 ((ds ++ ds').take i), addRows k w.2 ((gs ++ gs').take j).flatten) :=
      h2.imp id fun ⟨i, j, e⟩ => ⟨_, _, e.trans (part i j)⟩
    refine ⟨ds ++ ds', gs ++ gs', f'', ?_, ?_, fun hn => ?_, fun g hg => ?_, new ++ new', by rw [k5, h5, List.append_assoc],
      fun t ht => ?_⟩
    · rw [addRows_append, List.flatten_append, addRows_append]; exact k1
    · rcases k2 with e | ⟨i, j, e⟩
      · rw [e]; exact hf'
      · exact .inr ⟨_, _, e.trans (part' i j)⟩
    · obtain ⟨n1, n2⟩ := List.append_eq_nil_iff.1 hn
      exact (k3 n2).trans (h3 n1)
    · exact (List.mem_append.1 hg).elim (h4 g) (k4 g)
    · rcases List.mem_append.1 ht with ht | ht
      · exact (h6 t ht).imp id fun ⟨i, j, e⟩ => ⟨_, _, by rw [e, part i j]⟩
      · rcases k6 t ht with e | ⟨i, j, e⟩
        · rcases hf' with e' | ⟨i, j, e'⟩
          · exact .inl (by rw [e, e'])
          · exact .inr ⟨i, j, by rw [e, e']⟩
        · exact .inr ⟨_, _, by rw [e, part' i j]⟩

theorem ggrow_dyn (hne : cfg.dynTable ≠ cfg.expTable) (data : List (Arr × Arr)) (seed : ℤ) {P : List Row → Prop} :
    GGrow cols k base cfg P (Db.insertDynamicsData cfg.dynTable data seed) := fun c w f h => by
  obtain ⟨c', h1, h2, h3, n, h4⟩ := insertDynamics_run cfg.dynTable seed data 0 (c := c) (rows := w.1)
    (by rw [h.1, gtabs_dyn hne])
  have h1' : Db.insertDynamicsData cfg.dynTable data seed c = (.ok (), c') := h1
  rw [h.1, gtabs_update_dyn hne] at h2
  rw [h1']
  exact ⟨dynRows seed 0 data, [], f, ⟨h2, h3.trans h.2⟩, .inl rfl, fun _ => rfl, by simp, _, h4, fun t ht =>
    .inl ((List.eq_of_mem_replicate ht).trans h.2)⟩

theorem ggrow_commit {α : Type} {X : PyM Conn α} {gs : List (List Row)} {P : List Row → Prop} (hP : ∀ g ∈ gs, P g)
    (hX : ∀ c rows, c.work cfg.expTable = some (keyedTable cols k rows) →
      (X c).2 = c ∨ (X c).2 = commitGroups cols k cfg.expTable c rows gs) :
    GGrow cols k base cfg P X := fun c w f h => by
  have hc : c.work cfg.expTable = some (keyedTable cols k w.2) := by rw [h.1, gtabs_exp]
  rcases hX c _ hc with e | e
  · rw [e]
    exact ⟨[], [], f, h, .inl rfl, fun _ => rfl, by simp, [], by simp, by simp⟩
  · rw [e]
    have hw := commitGroups_work hc gs
    have hf := commitGroups_saved hc gs
    obtain ⟨new, n1, n2, -⟩ := commitGroups_history hc gs
    rw [h.1, gtabs_update_exp] at hw hf
    rw [h.2] at hf
    simp only [h.1, gtabs_update_exp, h.2] at n2
    refine ⟨[], gs, if gs = [] then f else (w.1, addRows k w.2 gs.flatten), ⟨hw, ?_⟩, ?_, fun hn => if_pos hn, hP, new, n1,
      fun t ht => ?_⟩
    · rw [hf]; split <;> rfl
    · split
      · exact .inl rfl
      · exact .inr ⟨0, gs.length, by simp⟩
    · exact (n2 t ht).imp id fun ⟨j, _, _, e⟩ => ⟨0, j, by rw [e]; simp⟩

end Verif
