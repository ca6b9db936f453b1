import Verif.Lemmas.Database
import Verif.Model.Scripts

/-! Tables whose constraint is on their first columns. -/

namespace Verif

theorem cells_eq {cols : List String} (hn : cols.Nodup) (q : Row) :
    cols.map (Table.cell cols q) = (q ++ List.replicate cols.length Cell.null).take cols.length := by
  induction cols generalizing q with
  | nil => simp
  | cons c cols ih =>
    obtain ⟨hc, hn⟩ := List.nodup_cons.1 hn
    rcases q with _ | ⟨a, q⟩
    · have : ∀ d : String, Table.cell (c :: cols) [] d = .null := fun d => by simp [Table.cell]
      have h : Table.cell (c :: cols) [] = fun _ => Cell.null := funext this
      rw [h, List.map_const']
      simp
    · rw [List.map_cons, List.length_cons, List.cons_append, List.take_succ_cons]
      congr 1
      · simp [Table.cell]
      · have : cols.map (Table.cell (c :: cols) (a :: q)) = cols.map (Table.cell cols q) := List.map_congr_left fun d hd => by
          have : (d == c) = false := by simp; rintro rfl; exact hc hd
          simp [Table.cell, List.lookup, this]
        rw [this, ih hn q]
        rw [List.take_append, List.take_append]
        congr 1
        rw [List.take_replicate, List.take_replicate]
        congr 1
        omega

/-- A row for a table: as many cells as columns, no `NULL` in the key. -/
def RowFor (cols : List String) (k : ℕ) (r : Row) : Prop := r.length = cols.length ∧ Cell.null ∉ r.take k

open Classical in
theorem keyed_conflicts {cols : List String} (hn : cols.Nodup) {k : ℕ} (hk : k ≤ cols.length) (rows : List Row) {r : Row}
    (hr : RowFor cols k r) : (keyedTable cols k rows).conflicts r = true ↔ ∃ q ∈ rows, q.take k = r.take k := by
  have hkey : ∀ q, (keyedTable cols k rows).key q = (q ++ List.replicate cols.length Cell.null).take k := fun q => by
    show (cols.take k).map (Table.cell cols q) = _
    rw [List.map_take, cells_eq hn, List.take_take, min_eq_left hk]
  have hr' : (keyedTable cols k rows).key r = r.take k := by
    rw [hkey, List.take_append_of_le_length (by rw [hr.1]; exact hk)]
  unfold Table.conflicts
  rw [hr', Bool.and_eq_true, decide_eq_true_iff, List.any_eq_true]
  simp only [decide_eq_true_iff, hkey]
  refine ⟨fun ⟨_, q, hq, e⟩ => ⟨q, hq, ?_⟩, fun ⟨q, hq, e⟩ => ⟨hr.2, q, hq, ?_⟩⟩
  · by_cases hl : k ≤ q.length
    · rwa [List.take_append_of_le_length hl] at e
    · refine absurd (e ▸ ?_ : Cell.null ∈ r.take k) hr.2
      rw [List.take_append, List.mem_append]
      right
      rw [List.take_replicate, List.mem_replicate]
      exact ⟨by omega, rfl⟩
  · have : k ≤ q.length := by
      have := congrArg List.length e
      rw [List.length_take, List.length_take, hr.1] at this
      omega
    rw [List.take_append_of_le_length this, e]

theorem keyed_row {cols : List String} (hn : cols.Nodup) {k : ℕ} {r : Row} (hr : RowFor cols k r) :
    cols.map (Table.cell cols r) = r := by
  rw [cells_eq hn, List.take_append_of_le_length hr.1.ge, ← hr.1, List.take_length]

open Classical in
theorem keyed_insert {cols : List String} (hn : cols.Nodup) {k : ℕ} (hk : k ≤ cols.length) (rows : List Row) {r : Row}
    (hr : RowFor cols k r) : (keyedTable cols k rows).insertOrIgnore cols r = .ok (keyedTable cols k (addRow k rows r)) := by
  unfold Table.insertOrIgnore
  rw [if_pos ⟨hr.1.symm, fun c hc => hc⟩]
  have hrow : (keyedTable cols k rows).cols.map (Table.cell cols r) = r := keyed_row hn hr
  rw [hrow]
  simp only [Except.ok.injEq]
  unfold addRow
  by_cases hc : ∃ q ∈ rows, q.take k = r.take k
  · rw [if_pos ((keyed_conflicts hn hk rows hr).2 hc), if_pos hc]
  · rw [if_neg (fun h => hc ((keyed_conflicts hn hk rows hr).1 h)), if_neg hc]; rfl

/-- Inserting the rows of one job and committing. -/
theorem recordRows_run {table : String} {cols : List String} (hn : cols.Nodup) {k : ℕ} (hk : k ≤ cols.length) (rs : List Row)
    (hrs : ∀ r ∈ rs, RowFor cols k r) {c : Conn} {rows : List Row} (hc : c.work table = some (keyedTable cols k rows)) :
    ∃ c', recordRows table cols rs c = (.ok (), c') ∧ c'.saved = c'.work ∧ c'.inTx = false ∧
      c'.work = Function.update c.work table (some (keyedTable cols k (addRows k rows rs))) ∧
      ∃ m, c'.history = c.history ++ List.replicate m c.saved ++ [c'.work] := by
  have loop : ∀ (rs : List Row), (∀ r ∈ rs, RowFor cols k r) → ∀ (c : Conn) (rows : List Row),
      c.work table = some (keyedTable cols k rows) →
      ∃ c', PyM.forEach rs (fun r => Db.insert table cols r) c = (.ok (), c') ∧ c'.saved = c.saved ∧
        c'.work = Function.update c.work table (some (keyedTable cols k (addRows k rows rs))) ∧
        ∃ m, c'.history = c.history ++ List.replicate m c.saved := by
    intro rs
    induction rs with
    | nil => exact fun _ c rows hc => ⟨c, rfl, rfl, by rw [addRows_nil, ← hc, Function.update_eq_self], 0, by simp⟩
    | cons r rs ih =>
      intro hrs c rows hc
      have h1 := insert_run hc (keyed_insert hn hk rows (hrs r (by simp)))
      obtain ⟨c', e, e1, e2, m, e3⟩ := ih (fun q hq => hrs q (by simp [hq])) (c.put table (keyedTable cols k (addRow k rows r)))
        (addRow k rows r) (by simp [Conn.put, Conn.record])
      refine ⟨c', ?_, e1, ?_, m + 1, ?_⟩
      · unfold PyM.forEach; rw [PyM.bind_ok h1, e]
      · rw [e2, addRows_cons]
        simp [Conn.put, Conn.record]
      · rw [e3]
        simp [Conn.put, Conn.record, List.replicate_succ]
  obtain ⟨c', e, e1, e2, m, e3⟩ := loop rs hrs c rows hc
  refine ⟨c'.sync, ?_, rfl, rfl, e2, m, ?_⟩
  · unfold recordRows; rw [PyM.bind_ok e]; rfl
  · simp [Conn.sync, Conn.record, e3]

end Verif
