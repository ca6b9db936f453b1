import Verif.Lemmas.Keyed
import Verif.Model.EpL96

/-! Computations that add rows to one table one by one, each in a transaction of its own. -/

namespace Verif

theorem withRows_self {cols : List String} {k : ℕ} {name : String} {file : Tables} {rows : List Row}
    (h : file name = some (keyedTable cols k rows)) : withRows cols k name file rows = file := by
  rw [withRows, ← h, Function.update_eq_self]

/-- New rows come after old ones and repeat no key. -/
def NewKeys (k : ℕ) (rows new : List Row) : Prop :=
  (∀ r ∈ new, ∀ q ∈ rows, q.take k ≠ r.take k) ∧ Keyed k new

/-- Started with a synchronised connection, the computation adds rows to the table whose keys are those of the list, in this order; if it
raises, the first few of them.  The connection stays synchronised, and on the way the file holds only first parts of the new rows. -/
def Logs {σ α : Type} (π : σ → Conn) (cols : List String) (k : ℕ) (name : String) (x : PyM σ α) (keys : List Row) : Prop :=
  ∀ (s : σ) (rows : List Row), (π s).work name = some (keyedTable cols k rows) → (π s).saved = (π s).work →
    ∃ new : List Row, (π (x s).2).work = withRows cols k name (π s).work (rows ++ new) ∧ (π (x s).2).saved = (π (x s).2).work ∧
      NewKeys k rows new ∧ new.map (List.take k) <+: keys ∧ (∀ a, (x s).1 = .ok a → new.map (List.take k) = keys) ∧
      ∃ stages : List Tables, (π (x s).2).history = (π s).history ++ stages ∧
        (∀ f ∈ stages, ∃ i ≤ new.length, f = withRows cols k name (π s).work (rows ++ new.take i))

section

variable {σ α β : Type} {π : σ → Conn} {cols : List String} {k : ℕ} {name : String}

theorem Logs.still {x : PyM σ α} (h : ∀ s, π (x s).2 = π s) : Logs π cols k name x [] := fun s rows h1 h2 =>
  ⟨[], by rw [h, List.append_nil, withRows_self h1], by rw [h, h2], ⟨by simp, List.Pairwise.nil⟩, List.nil_prefix, fun _ _ => rfl, [],
    by rw [h, List.append_nil], by simp⟩

theorem NewKeys.append {rows new new' : List Row} (h : NewKeys k rows new) (h' : NewKeys k (rows ++ new) new') :
    NewKeys k rows (new ++ new') := by
  refine ⟨fun r hr q hq => ?_, List.pairwise_append.2 ⟨h.2, h'.2, fun a ha b hb => h'.1 b hb a (by simp [ha])⟩⟩
  rcases List.mem_append.1 hr with hr | hr
  · exact h.1 r hr q hq
  · exact h'.1 r hr q (by simp [hq])

theorem Logs.bind {x : PyM σ α} {f : α → PyM σ β} {keys keys' : List Row} (hx : Logs π cols k name x keys)
    (hf : ∀ a, Logs π cols k name (f a) keys') : Logs π cols k name (x >>= f) (keys ++ keys') := by
  intro s rows h1 h2
  obtain ⟨new, a1, a2, a3, a4, a5, stages, a6, a7⟩ := hx s rows h1 h2
  rcases hxs : x s with ⟨e | a, s'⟩
  · rw [PyM.bind_error hxs]
    rw [hxs] at a1 a2 a6
    exact ⟨new, a1, a2, a3, a4.trans (List.prefix_append _ _), fun _ h => by simp at h, stages, a6, a7⟩
  · rw [PyM.bind_ok hxs]
    rw [hxs] at a1 a2 a5 a6
    obtain ⟨new', b1, b2, b3, b4, b5, stages', b6, b7⟩ := hf a s' (rows ++ new)
      (by rw [a1, withRows, Function.update_self]) a2
    have hw : ∀ rs, withRows cols k name (π s').work rs = withRows cols k name (π s).work rs := fun rs => by
      simp only at a1
      rw [a1, withRows, withRows, withRows, Function.update_idem]
    have ha := a5 a rfl
    refine ⟨new ++ new', ?_, b2, a3.append b3, ?_, fun v hv => ?_, stages ++ stages', ?_, fun f hf' => ?_⟩
    · rw [b1, hw, List.append_assoc]
    · rw [List.map_append, ha]; exact List.prefix_append_right_inj _ |>.2 b4
    · rw [List.map_append, ha, b5 v hv]
    · rw [b6, a6, List.append_assoc]
    · rcases List.mem_append.1 hf' with hf' | hf'
      · obtain ⟨i, hi, rfl⟩ := a7 f hf'
        refine ⟨i, by simp; omega, ?_⟩
        rw [List.take_append_of_le_length hi]
      · obtain ⟨i, hi, rfl⟩ := b7 f hf'
        refine ⟨new.length + i, by simp; omega, ?_⟩
        rw [hw, List.append_assoc, List.take_length_add_append]

theorem Logs.forEach {l : List α} {body : α → PyM σ Unit} {keys : α → List Row} (h : ∀ a, Logs π cols k name (body a) (keys a)) :
    Logs π cols k name (PyM.forEach l body) (l.flatMap keys) := by
  induction l with
  | nil => exact Logs.still fun _ => rfl
  | cons a l ih => rw [List.flatMap_cons]; exact (h a).bind fun _ => ih

theorem Logs.congr {x : PyM σ α} {keys keys' : List Row} (h : Logs π cols k name x keys) (e : keys = keys') :
    Logs π cols k name x keys' := e ▸ h

end

/-- A plain insertion followed by a commit. -/
theorem insertStrict_logs {cols : List String} (hn : cols.Nodup) {k : ℕ} (hk : k ≤ cols.length) {name : String} {r : Row}
    (hr : RowFor cols k r) : Logs id cols k name (do Db.insertStrict name cols r; Db.commit) [r.take k] := by
  intro c rows h1 h2
  simp only [id] at h1 h2 ⊢
  have hcells : (keyedTable cols k rows).cols.map (Table.cell cols r) = r := keyed_row hn hr
  by_cases hc : ∃ q ∈ rows, q.take k = r.take k
  · have ht : (keyedTable cols k rows).insertStrict cols r = .error .sql := by
      unfold Table.insertStrict
      rw [if_pos ⟨hr.1.symm, fun c hc => hc⟩, hcells]
      exact if_pos ((keyed_conflicts hn hk rows hr).2 hc)
    have hi : Db.insertStrict name cols r c = (.error .sql, ({ c with inTx := true } : Conn).record) := by
      unfold Db.insertStrict
      rw [PyM.get_bind]
      simp only [h1, ht]
      rfl
    rw [PyM.bind_error hi]
    refine ⟨[], ?_, h2, ⟨by simp, List.Pairwise.nil⟩, List.nil_prefix, fun _ h => by simp at h, [c.saved], rfl, ?_⟩
    · rw [List.append_nil, withRows_self h1]; rfl
    · intro f hf
      rw [List.mem_singleton] at hf
      exact ⟨0, by simp, by rw [hf, List.take_nil, List.append_nil, withRows_self h1, h2]⟩
  · have ht : (keyedTable cols k rows).insertStrict cols r = .ok (keyedTable cols k (rows ++ [r])) := by
      unfold Table.insertStrict
      rw [if_pos ⟨hr.1.symm, fun c hc => hc⟩, hcells]
      exact if_neg fun h => hc ((keyed_conflicts hn hk rows hr).1 h)
    have hi : Db.insertStrict name cols r c = (.ok (), c.put name (keyedTable cols k (rows ++ [r]))) := by
      unfold Db.insertStrict
      rw [PyM.get_bind]
      simp only [h1, ht]
      rfl
    rw [PyM.bind_ok hi, commit_run]
    refine ⟨[r], rfl, rfl, ⟨fun q hq p hp e => hc ⟨p, hp, ?_⟩, List.pairwise_singleton _ _⟩, List.prefix_rfl, fun _ _ => rfl,
      [c.saved, withRows cols k name c.work (rows ++ [r])], ?_, ?_⟩
    · rw [List.mem_singleton] at hq; rw [e, hq]
    · simp [Conn.sync, Conn.put, Conn.record, withRows]
    · intro f hf
      simp only [List.mem_cons, List.not_mem_nil, or_false] at hf
      rcases hf with rfl | rfl
      · exact ⟨0, by simp, by rw [List.take_zero, List.append_nil, withRows_self h1, h2]⟩
      · exact ⟨1, by simp, rfl⟩

end Verif
