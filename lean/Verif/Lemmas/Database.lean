import Verif.Spec.Database
import Verif.Lemmas.PyM

/-! Rows, tables and connections. -/

namespace Verif

/-! ## Adding rows -/

theorem addRow_mem_key (k : ℕ) (rows : List Row) (r : Row) : ∃ q ∈ addRow k rows r, q.take k = r.take k := by
  unfold addRow
  split
  · assumption
  · exact ⟨r, by simp, rfl⟩

theorem addRow_prefix (k : ℕ) (rows : List Row) (r : Row) : rows <+: addRow k rows r := by
  unfold addRow
  split
  · exact List.prefix_rfl
  · exact List.prefix_append _ _

theorem addRow_of_mem {k : ℕ} {rows : List Row} {r : Row} (h : ∃ q ∈ rows, q.take k = r.take k) : addRow k rows r = rows :=
  if_pos h

@[simp] theorem addRows_nil (k : ℕ) (rows : List Row) : addRows k rows [] = rows := rfl

@[simp] theorem addRows_cons (k : ℕ) (rows : List Row) (r : Row) (rs : List Row) :
    addRows k rows (r :: rs) = addRows k (addRow k rows r) rs := rfl

theorem addRows_append (k : ℕ) (rows rs ss : List Row) : addRows k rows (rs ++ ss) = addRows k (addRows k rows rs) ss :=
  List.foldl_append

theorem addRows_prefix (k : ℕ) (rows rs : List Row) : rows <+: addRows k rows rs := by
  induction rs generalizing rows with
  | nil => exact List.prefix_rfl
  | cons r rs ih => exact (addRow_prefix k rows r).trans (ih _)

theorem addRows_mem_key {k : ℕ} {rows rs : List Row} {r : Row} (h : r ∈ rs) : ∃ q ∈ addRows k rows rs, q.take k = r.take k := by
  induction rs generalizing rows with
  | nil => simp at h
  | cons a rs ih =>
    rcases List.mem_cons.1 h with rfl | h
    · obtain ⟨q, hq, e⟩ := addRow_mem_key k rows r
      exact ⟨q, (addRows_prefix k _ rs).subset hq, e⟩
    · exact ih h

theorem addRows_of_mem {k : ℕ} {rows rs : List Row} (h : ∀ r ∈ rs, ∃ q ∈ rows, q.take k = r.take k) :
    addRows k rows rs = rows := by
  induction rs with
  | nil => rfl
  | cons r rs ih =>
    rw [addRows_cons, addRow_of_mem (h r (by simp)), ih fun r' hr' => h r' (by simp [hr'])]

/-- Rows that have been added are not added again. -/
theorem addRows_again {k : ℕ} {rows rs big : List Row} (h : addRows k rows rs <+: big) : addRows k big rs = big :=
  addRows_of_mem fun _ hr => (addRows_mem_key hr).imp fun _ hq => ⟨h.subset hq.1, hq.2⟩

/-- Starting over after the first `j` rows gives the same table. -/
theorem addRows_restart (k : ℕ) (rows rs : List Row) (j : ℕ) :
    addRows k (addRows k rows (rs.take j)) rs = addRows k rows rs := by
  have h : ∀ p q : List Row, addRows k (addRows k rows p) (p ++ q) = addRows k rows (p ++ q) := fun p q => by
    rw [addRows_append, addRows_again List.prefix_rfl, addRows_append]
  have := h (rs.take j) (rs.drop j)
  rwa [List.take_append_drop] at this

theorem addRows_keyed {k : ℕ} {rows : List Row} (h : Keyed k rows) (rs : List Row) : Keyed k (addRows k rows rs) := by
  induction rs generalizing rows with
  | nil => exact h
  | cons r rs ih =>
    refine ih ?_
    unfold addRow
    split
    · exact h
    · next hn =>
      refine List.pairwise_append.2 ⟨h, List.pairwise_singleton _ _, fun a ha b hb => ?_⟩
      rw [List.mem_singleton.1 hb]
      exact fun e => hn ⟨a, ha, e⟩

open Classical in
theorem addRows_find (k : ℕ) (rows rs : List Row) (key : Row) :
    (addRows k rows rs).find? (fun q => decide (q.take k = key)) = (rows ++ rs).find? fun q => decide (q.take k = key) := by
  induction rs generalizing rows with
  | nil => simp
  | cons r rs ih =>
    rw [addRows_cons, ih]
    unfold addRow
    split
    · next h =>
      obtain ⟨q, hq, e⟩ := h
      rw [List.find?_append, List.find?_append, List.find?_cons]
      by_cases hk : r.take k = key
      · have : (rows.find? fun q => decide (q.take k = key)).isSome := by
          rw [List.find?_isSome]
          exact ⟨q, hq, by simp [e, hk]⟩
        obtain ⟨x, hx⟩ := Option.isSome_iff_exists.1 this
        rw [hx]; rfl
      · simp [hk]
    · rw [List.append_assoc]; rfl

/-! ## Inserting into the two kinds of tables -/

/-- What an experiment row must satisfy: nine cells and no `NULL` in the key. -/
def ExpShape (r : Row) : Prop := ∃ a b c d e f g h i : Cell, r = [a, b, c, d, e, f, g, h, i] ∧ Cell.null ∉ [a, b, c, d, e]

/-- What a row of simulated data must satisfy. -/
def DynShape (r : Row) : Prop := ∃ a b c d : Cell, r = [a, b, c, d] ∧ Cell.null ∉ [a, b]

private theorem key_exp (rows : List Row) (q : Row) :
    (expTable rows).key q = [q.getD 0 .null, q.getD 1 .null, q.getD 2 .null, q.getD 3 .null, q.getD 4 .null] := by
  rcases q with _ | ⟨a, _ | ⟨b, _ | ⟨c, _ | ⟨d, _ | ⟨e, q⟩⟩⟩⟩⟩ <;> simp [expTable, Table.key, Table.cell, List.lookup]

private theorem key_dyn (rows : List Row) (q : Row) : (dynTable rows).key q = [q.getD 0 .null, q.getD 1 .null] := by
  rcases q with _ | ⟨a, _ | ⟨b, q⟩⟩ <;> simp [dynTable, Table.key, Table.cell, List.lookup]

open Classical in
theorem exp_insert (rows : List Row) {r : Row} (hr : ExpShape r) :
    (expTable rows).insertOrIgnore Db.expCols r = .ok (expTable (addRow 5 rows r)) := by
  obtain ⟨a, b, c, d, e, f, g, h, i, rfl, hn⟩ := hr
  unfold Table.insertOrIgnore
  rw [if_pos ⟨rfl, fun c hc => hc⟩]
  have hrow : (expTable rows).cols.map (Table.cell Db.expCols [a, b, c, d, e, f, g, h, i]) = [a, b, c, d, e, f, g, h, i] := by
    simp [expTable, Db.expCols, Table.cell, List.lookup]
  rw [hrow]
  have hiff : (expTable rows).conflicts [a, b, c, d, e, f, g, h, i] = true ↔
      ∃ q ∈ rows, q.take 5 = [a, b, c, d, e, f, g, h, i].take 5 := by
    have hk : (expTable rows).key [a, b, c, d, e, f, g, h, i] = [a, b, c, d, e] := by rw [key_exp]; rfl
    unfold Table.conflicts
    rw [hk, Bool.and_eq_true, decide_eq_true_iff, List.any_eq_true]
    simp only [decide_eq_true_iff]
    refine ⟨fun ⟨_, q, hq, e⟩ => ⟨q, hq, ?_⟩, fun ⟨q, hq, e⟩ => ⟨hn, q, hq, ?_⟩⟩
    · rw [key_exp] at e
      rcases q with _ | ⟨a', _ | ⟨b', _ | ⟨c', _ | ⟨d', _ | ⟨e', q⟩⟩⟩⟩⟩ <;> simp at e <;>
        simp [← e] at hn ⊢
    · rw [key_exp]
      rcases q with _ | ⟨a', _ | ⟨b', _ | ⟨c', _ | ⟨d', _ | ⟨e', q⟩⟩⟩⟩⟩ <;> simp at e ⊢
      exact e
  simp only [Except.ok.injEq]
  unfold addRow
  by_cases hc : ∃ q ∈ rows, q.take 5 = [a, b, c, d, e, f, g, h, i].take 5
  · rw [if_pos (hiff.2 hc), if_pos hc]
  · rw [if_neg (fun h => hc (hiff.1 h)), if_neg hc]; rfl

open Classical in
theorem dyn_insert (rows : List Row) {r : Row} (hr : DynShape r) :
    (dynTable rows).insertOrIgnore ["Seed", "t", "X", "Y"] r = .ok (dynTable (addRow 2 rows r)) := by
  obtain ⟨a, b, c, d, rfl, hn⟩ := hr
  unfold Table.insertOrIgnore
  rw [if_pos ⟨rfl, fun c hc => hc⟩]
  have hrow : (dynTable rows).cols.map (Table.cell ["Seed", "t", "X", "Y"] [a, b, c, d]) = [a, b, c, d] := by
    simp [dynTable, Table.cell, List.lookup]
  rw [hrow]
  have hiff : (dynTable rows).conflicts [a, b, c, d] = true ↔ ∃ q ∈ rows, q.take 2 = [a, b, c, d].take 2 := by
    have hk : (dynTable rows).key [a, b, c, d] = [a, b] := by rw [key_dyn]; rfl
    unfold Table.conflicts
    rw [hk, Bool.and_eq_true, decide_eq_true_iff, List.any_eq_true]
    simp only [decide_eq_true_iff]
    refine ⟨fun ⟨_, q, hq, e⟩ => ⟨q, hq, ?_⟩, fun ⟨q, hq, e⟩ => ⟨hn, q, hq, ?_⟩⟩
    · rw [key_dyn] at e
      rcases q with _ | ⟨a', _ | ⟨b', q⟩⟩ <;> simp at e <;> simp [← e] at hn ⊢
    · rw [key_dyn]
      rcases q with _ | ⟨a', _ | ⟨b', q⟩⟩ <;> simp at e ⊢
      exact e
  simp only [Except.ok.injEq]
  unfold addRow
  by_cases hc : ∃ q ∈ rows, q.take 2 = [a, b, c, d].take 2
  · rw [if_pos (hiff.2 hc), if_pos hc]
  · rw [if_neg (fun h => hc (hiff.1 h)), if_neg hc]; rfl

/-! ## Connections -/

/-- The connection after an insert that left table `name` as `t`. -/
def Conn.put (c : Conn) (name : String) (t : Table) : Conn :=
  ({ c with work := Function.update c.work name (some t), inTx := true } : Conn).record

/-- The connection after a commit. -/
def Conn.sync (c : Conn) : Conn := ({ c with saved := c.work, inTx := false } : Conn).record

theorem insert_run {c : Conn} {name : String} {t t' : Table} {cols : List String} {vals : List Cell} (ht : c.work name = some t)
    (hi : t.insertOrIgnore cols vals = .ok t') : Db.insert name cols vals c = (.ok (), c.put name t') := by
  unfold Db.insert
  rw [PyM.get_bind]
  simp only [ht, hi]
  rfl

theorem commit_run (c : Conn) : Db.commit c = (.ok (), c.sync) := rfl

/-- Inserting and committing experiment rows one by one. -/
noncomputable def commitRows (name : String) : Conn → List Row → List Row → Conn
  | c, _, [] => c
  | c, rows, r :: rs => commitRows name ((c.put name (expTable (addRow 5 rows r))).sync) (addRow 5 rows r) rs

theorem put_sync_work (c : Conn) (name : String) (t : Table) :
    ((c.put name t).sync).work = Function.update c.work name (some t) := rfl

theorem put_sync_saved (c : Conn) (name : String) (t : Table) :
    ((c.put name t).sync).saved = Function.update c.work name (some t) := rfl

theorem put_sync_history (c : Conn) (name : String) (t : Table) :
    ((c.put name t).sync).history = c.history ++ [c.saved, Function.update c.work name (some t)] := by
  simp [Conn.sync, Conn.put, Conn.record]

theorem commitRows_work {c : Conn} {name : String} {rows : List Row} (h : c.work name = some (expTable rows)) (rs : List Row) :
    (commitRows name c rows rs).work = Function.update c.work name (some (expTable (addRows 5 rows rs))) := by
  induction rs generalizing c rows with
  | nil => rw [commitRows, addRows_nil, ← h, Function.update_eq_self]
  | cons r rs ih =>
    rw [commitRows, ih (by rw [put_sync_work, Function.update_self]), put_sync_work, Function.update_idem]; rfl

theorem commitRows_saved {c : Conn} {name : String} {rows : List Row} (h : c.work name = some (expTable rows)) (rs : List Row) :
    (commitRows name c rows rs).saved =
      if rs = [] then c.saved else Function.update c.work name (some (expTable (addRows 5 rows rs))) := by
  induction rs generalizing c rows with
  | nil => rfl
  | cons r rs ih =>
    rw [commitRows, ih (by rw [put_sync_work, Function.update_self]), put_sync_work, Function.update_idem, put_sync_saved,
      if_neg (List.cons_ne_nil _ _)]
    split
    · next h => rw [h]; rfl
    · rfl

theorem commitRows_inTx (c : Conn) (name : String) (rows rs : List Row) :
    (commitRows name c rows rs).inTx = if rs = [] then c.inTx else false := by
  induction rs generalizing c rows with
  | nil => rfl
  | cons r rs ih => rw [commitRows, ih]; split <;> rfl

/-- The contents of the file while rows are inserted and committed: as before, or with the first `j` rows. -/
theorem commitRows_history {c : Conn} {name : String} {rows : List Row} (h : c.work name = some (expTable rows)) (rs : List Row) :
    ∃ new, (commitRows name c rows rs).history = c.history ++ new ∧
      (∀ f ∈ new, f = c.saved ∨ ∃ j, 1 ≤ j ∧ j ≤ rs.length ∧
        f = Function.update c.work name (some (expTable (addRows 5 rows (rs.take j))))) ∧
      ∀ j, 1 ≤ j → j ≤ rs.length → Function.update c.work name (some (expTable (addRows 5 rows (rs.take j)))) ∈ new := by
  induction rs generalizing c rows with
  | nil => exact ⟨[], by simp [commitRows], by simp, fun j h1 h2 => absurd h1 (by simp at h2; omega)⟩
  | cons r rs ih =>
    obtain ⟨new, h1, h2, h3⟩ := ih (c := (c.put name (expTable (addRow 5 rows r))).sync) (rows := addRow 5 rows r)
      (by rw [put_sync_work, Function.update_self])
    refine ⟨c.saved :: Function.update c.work name (some (expTable (addRow 5 rows r))) :: new, ?_, fun f hf => ?_, fun j hj hj' => ?_⟩
    · rw [commitRows, h1, put_sync_history, List.append_assoc]; rfl
    · simp only [List.mem_cons] at hf
      rcases hf with rfl | rfl | hf
      · exact .inl rfl
      · exact .inr ⟨1, le_rfl, by simp, rfl⟩
      · rcases h2 f hf with e | ⟨j, hj, hj', e⟩
        · exact .inr ⟨1, le_rfl, by simp, e⟩
        · refine .inr ⟨j + 1, by omega, by simpa using hj', ?_⟩
          rw [e, put_sync_work, Function.update_idem]; rfl
    · rcases j with _ | _ | j
      · omega
      · simp
      · have := h3 (j + 1) (by omega) (by simpa using hj')
        rw [put_sync_work, Function.update_idem] at this
        exact List.mem_cons_of_mem _ (List.mem_cons_of_mem _ this)

end Verif
