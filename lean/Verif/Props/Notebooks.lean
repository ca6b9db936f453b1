import Verif.Spec.Notebooks
import Verif.Lemmas.Keeps
import Verif.Props.GrowthSweep
import Verif.Props.Plot

/-!
# Curves and heat maps of stored results (C108)
-/

namespace Verif

namespace Notebook

/-! ## Iterations are stored in order -/

open Classical in
/-- The rows of a setting. -/
private noncomputable def pick (tr : String) (seed : ℤ) (p d : ℝ) (rows : List Row) : List Row :=
  rows.filter fun r => decide (∃ it a b, r = expRow tr seed p d it a b)

/-- All rows are rows of results. -/
private def Plain (ok : Setting → Prop) (rows : List Row) : Prop :=
  ∀ r ∈ rows, ∃ (s : Setting) (seed : ℤ) (it a b : ℝ), ok s ∧ r = expRow s.transId seed s.power s.damping it a b

/-- The rows of every setting are those of iterations one, two and so on, in this order. -/
private def Numbered (rows : List Row) : Prop :=
  ∀ tr seed p d, ∃ l : List (ℝ × ℝ), pick tr seed p d rows = l.mapIdx fun k s => expRow tr seed p d (k + 1) s.1 s.2

private theorem expRow_inj {tr tr' : String} {seed seed' : ℤ} {p p' d d' it it' a a' b b' : ℝ}
    (h : expRow tr seed p d it a b = expRow tr' seed' p' d' it' a' b') :
    tr = tr' ∧ seed = seed' ∧ p = p' ∧ d = d' ∧ it = it' ∧ a = a' ∧ b = b' := by
  simp only [expRow, List.cons.injEq, Cell.text.injEq, Cell.num.injEq, Int.cast_inj, and_true] at h
  tauto

private theorem key_inj {tr tr' : String} {seed seed' : ℤ} {p p' d d' it it' a a' b b' : ℝ}
    (h : (expRow tr seed p d it a b).take 5 = (expRow tr' seed' p' d' it' a' b').take 5) :
    tr = tr' ∧ seed = seed' ∧ p = p' ∧ d = d' ∧ it = it' := by
  simp only [expRow, List.take_succ_cons, List.take_zero, List.cons.injEq, Cell.text.injEq, Cell.num.injEq, Int.cast_inj, and_true] at h
  tauto

private theorem pick_single (tr : String) (seed : ℤ) (p d it a b : ℝ) :
    pick tr seed p d [expRow tr seed p d it a b] = [expRow tr seed p d it a b] := by
  have h : ∃ it' a' b', expRow tr seed p d it a b = expRow tr seed p d it' a' b' := ⟨it, a, b, rfl⟩
  simp [pick, h]

/-- The next row of a setting is stored already, or it is put at the end. -/
private theorem numbered_step {ok : Setting → Prop} {rows : List Row} (hp : Plain ok rows) (hn : Numbered rows) (s : Setting) (hs : ok s)
    (seed : ℤ) (m : ℕ) (a b : ℝ) (hm : m ≤ (pick s.transId seed s.power s.damping rows).length) :
    Plain ok (addRow 5 rows (expRow s.transId seed s.power s.damping (m + 1) a b)) ∧
      Numbered (addRow 5 rows (expRow s.transId seed s.power s.damping (m + 1) a b)) ∧
      m + 1 ≤ (pick s.transId seed s.power s.damping (addRow 5 rows (expRow s.transId seed s.power s.damping (m + 1) a b))).length := by
  classical
  obtain ⟨l, hl⟩ := hn s.transId seed s.power s.damping
  have hlen : (pick s.transId seed s.power s.damping rows).length = l.length := by rw [hl, List.length_mapIdx]
  by_cases he : ∃ q ∈ rows, q.take 5 = (expRow s.transId seed s.power s.damping (m + 1) a b).take 5
  · rw [addRow_of_mem he]
    refine ⟨hp, hn, ?_⟩
    obtain ⟨q, hq, e⟩ := he
    obtain ⟨s', seed', it, a', b', -, rfl⟩ := hp q hq
    obtain ⟨e1, e2, e3, e4, e5⟩ := key_inj e
    have hmem : expRow s'.transId seed' s'.power s'.damping it a' b' ∈ pick s.transId seed s.power s.damping rows := by
      refine List.mem_filter.2 ⟨hq, decide_eq_true ⟨it, a', b', ?_⟩⟩
      rw [e1, e2, e3, e4]
    rw [hl] at hmem
    obtain ⟨k, hk, e'⟩ := List.mem_iff_getElem.1 hmem
    rw [List.getElem_mapIdx] at e'
    obtain ⟨-, -, -, -, e6, -⟩ := expRow_inj e'
    rw [e5] at e6
    have : k = m := by
      have : (k : ℝ) = m := by linarith
      exact_mod_cast this
    rw [List.length_mapIdx] at hk
    omega
  · have hadd : addRow 5 rows (expRow s.transId seed s.power s.damping (m + 1) a b) =
        rows ++ [expRow s.transId seed s.power s.damping (m + 1) a b] := if_neg he
    have hm' : l.length = m := by
      by_contra hne
      have hlt : m < l.length := by omega
      refine he ⟨expRow s.transId seed s.power s.damping (m + 1) (l[m]).1 (l[m]).2, ?_, rfl⟩
      have : expRow s.transId seed s.power s.damping (m + 1) (l[m]).1 (l[m]).2 ∈ pick s.transId seed s.power s.damping rows := by
        rw [hl]
        exact List.mem_iff_getElem.2 ⟨m, by simpa using hlt, by rw [List.getElem_mapIdx]⟩
      exact (List.mem_filter.1 this).1
    rw [hadd]
    refine ⟨fun r hr => ?_, fun tr seed' p d => ?_, ?_⟩
    · rcases List.mem_append.1 hr with hr | hr
      · exact hp r hr
      · exact ⟨s, seed, m + 1, a, b, hs, List.mem_singleton.1 hr⟩
    · by_cases hsame : ∃ it a' b', expRow s.transId seed s.power s.damping (m + 1) a b = expRow tr seed' p d it a' b'
      · obtain ⟨it, a', b', e⟩ := hsame
        obtain ⟨rfl, rfl, rfl, rfl, -⟩ := expRow_inj e
        refine ⟨l ++ [(a, b)], ?_⟩
        have e1 : pick s.transId seed s.power s.damping [expRow s.transId seed s.power s.damping (m + 1) a b] =
            [expRow s.transId seed s.power s.damping (m + 1) a b] := by
          exact pick_single ..
        have e2 : pick s.transId seed s.power s.damping (rows ++ [expRow s.transId seed s.power s.damping (m + 1) a b]) =
            pick s.transId seed s.power s.damping rows ++
              pick s.transId seed s.power s.damping [expRow s.transId seed s.power s.damping (m + 1) a b] := List.filter_append ..
        rw [e2, e1, hl, List.mapIdx_concat, hm']
      · obtain ⟨l', hl'⟩ := hn tr seed' p d
        refine ⟨l', ?_⟩
        have e1 : pick tr seed' p d [expRow s.transId seed s.power s.damping (m + 1) a b] = [] := by
          unfold pick
          rw [List.filter_cons_of_neg (by simpa using hsame)]
          rfl
        have e2 : pick tr seed' p d (rows ++ [expRow s.transId seed s.power s.damping (m + 1) a b]) =
            pick tr seed' p d rows ++ pick tr seed' p d [expRow s.transId seed s.power s.damping (m + 1) a b] := List.filter_append ..
        rw [e2, e1, List.append_nil, hl']
    · have e2 : pick s.transId seed s.power s.damping (rows ++ [expRow s.transId seed s.power s.damping (m + 1) a b]) =
          pick s.transId seed s.power s.damping rows ++
            pick s.transId seed s.power s.damping [expRow s.transId seed s.power s.damping (m + 1) a b] := List.filter_append ..
      rw [e2, pick_single, List.length_append, hlen, hm']
      rfl

private theorem numbered_adds {ok : Setting → Prop} (s : Setting) (hs : ok s) (seed : ℤ) (rs : List Row)
    (hrs : ∀ (i : ℕ) (r : Row), rs[i]? = some r → ∃ a b, r = expRow s.transId seed s.power s.damping (i + 1) a b) {rows : List Row}
    (hp : Plain ok rows) (hn : Numbered rows) (j : ℕ) (hj : j ≤ rs.length) :
    Plain ok (addRows 5 rows (rs.take j)) ∧ Numbered (addRows 5 rows (rs.take j)) ∧
      j ≤ (pick s.transId seed s.power s.damping (addRows 5 rows (rs.take j))).length := by
  induction j with
  | zero => simpa using ⟨hp, hn⟩
  | succ j ih =>
    obtain ⟨h1, h2, h3⟩ := ih (by omega)
    obtain ⟨a, b, e⟩ := hrs j rs[j] (List.getElem?_eq_getElem (by omega))
    rw [List.take_succ_eq_append_getElem (by omega), addRows_append, e]
    exact numbered_step h1 h2 s hs seed j a b h3

private theorem numbered_keep {ok : Setting → Prop} {env : Env} {jac : Jac} {draw : Draw} {cfg : Config} {x y : List Arr} {seed : ℤ}
    {s : Setting} (hs : ok s) {rows : List Row} (h : Plain ok rows ∧ Numbered rows) (j : ℕ) :
    Plain ok (addRows 5 rows ((powerRows env jac draw cfg x y seed s).1.take j)) ∧
      Numbered (addRows 5 rows ((powerRows env jac draw cfg x y seed s).1.take j)) := by
  rw [← List.take_length (l := (powerRows env jac draw cfg x y seed s).1), List.take_take]
  obtain ⟨h1, h2, -⟩ := numbered_adds s hs seed _ (fun i r hi => powerRows_get env jac draw cfg x y seed s i r hi) h.1 h.2
    (min j (powerRows env jac draw cfg x y seed s).1.length) (min_le_right ..)
  exact ⟨h1, h2⟩

private theorem after_runs {dyn exp : String} (hne : dyn ≠ exp) {ok : Setting → Prop} {file : Tables} (h : AfterRuns dyn exp ok file) :
    ∃ d e, (file dyn = some (dynTable d) ∨ file dyn = none ∧ d = []) ∧ (file exp = some (expTable e) ∨ file exp = none ∧ e = []) ∧
      Plain ok e ∧ Numbered e ∧ Keyed 5 e := by
  induction h with
  | start file hd he =>
    obtain ⟨d, hd⟩ : ∃ d, file dyn = some (dynTable d) ∨ file dyn = none ∧ d = [] := by
      rcases hd with hd | ⟨d, hd⟩
      · exact ⟨[], .inr ⟨hd, rfl⟩⟩
      · exact ⟨d, .inl hd⟩
    exact ⟨d, [], hd, he.symm.imp id fun h => ⟨h, rfl⟩, by simp [Plain], fun _ _ _ _ => ⟨[], rfl⟩,
      List.Pairwise.nil⟩
  | run h env jac draws cfg hd he seeds transTypes powers dampings override hok hf ih =>
    obtain ⟨d, e, h1, h2, h3⟩ := ih
    subst hd he
    obtain ⟨d', e', k1, k2⟩ := sweep_keeps (I := fun rows => Plain _ rows ∧ Numbered rows ∧ Keyed 5 rows) hne env jac draws seeds
      transTypes powers dampings override (fun s hs seed draw x y rows hI j =>
        ⟨(numbered_keep (hok s hs) ⟨hI.1, hI.2.1⟩ j).1, (numbered_keep (hok s hs) ⟨hI.1, hI.2.1⟩ j).2, addRows_keyed hI.2.2 _⟩)
      ⟨h1, h2⟩ h3 hf
    exact ⟨d', e', k1.1, k1.2, k2⟩

/-! ## Queries -/

section Cells

variable (rows : List Row) (tr : String) (seed : ℤ) (p d it a b : ℝ)

private theorem cell_transform : Table.cell (expTable rows).cols (expRow tr seed p d it a b) "Transform" = .text tr := rfl
private theorem cell_seed : Table.cell (expTable rows).cols (expRow tr seed p d it a b) "Seed" = .num seed := rfl
private theorem cell_iter : Table.cell (expTable rows).cols (expRow tr seed p d it a b) "Iter" = .num it := rfl
private theorem cell_power : Table.cell (expTable rows).cols (expRow tr seed p d it a b) "Power" = .num p := rfl
private theorem cell_damping : Table.cell (expTable rows).cols (expRow tr seed p d it a b) "Damping" = .num d := rfl
private theorem cell_rmse : Table.cell (expTable rows).cols (expRow tr seed p d it a b) "RMSE" = .num a := rfl
private theorem cell_nll : Table.cell (expTable rows).cols (expRow tr seed p d it a b) "NLL" = .num b := rfl
private theorem key_expRow : (expTable rows).key (expRow tr seed p d it a b) = [.text tr, .num seed, .num it, .num p, .num d] := rfl

end Cells

open Classical in
private theorem fetch_run (scan : Scan) {table : String} {rows : List Row} {c : Conn} (hc : c.work table = some (expTable rows))
    {cols : List String} {conds : List (String × Cell)} (h1 : ∀ a ∈ cols, a ∈ (expTable rows).cols)
    (h2 : ∀ q ∈ conds, q.1 ∈ (expTable rows).cols) :
    fetch scan table cols conds c = (.ok ((scan.visit (expTable rows) (rows.filter fun r => conds.all fun q =>
      decide (Table.cell (expTable rows).cols r q.1 = q.2 ∧ q.2 ≠ .null))).map fun r => cols.map (Table.cell (expTable rows).cols r)), c) := by
  unfold fetch
  rw [PyM.bind_ok (show PyM.get c = (.ok c, c) from rfl), hc]
  dsimp only
  rw [if_pos ⟨h1, h2⟩]
  rfl

private theorem numbers_map {α : Type} (f : α → Cell) (g : α → ℝ) : ∀ l : List α, (∀ a ∈ l, f a = .num (g a)) →
    Display.numbers (l.map f) = .ok (l.map g)
  | [], _ => rfl
  | a :: l, h => by
    rw [List.map_cons, h a (by simp), Display.numbers, numbers_map f g l fun b hb => h b (by simp [hb]), ok_bind]
    rfl

open Classical in
/-- A query for a column of numbers; `l` are the rows in the order in which they are visited. -/
private theorem column_run (scan : Scan) {table : String} {rows : List Row} {c : Conn} (hc : c.work table = some (expTable rows))
    {col : String} {conds : List (String × Cell)} (h1 : col ∈ (expTable rows).cols) (h2 : ∀ q ∈ conds, q.1 ∈ (expTable rows).cols)
    {l : List Row} (hl : scan.visit (expTable rows) (rows.filter fun r => conds.all fun q =>
      decide (Table.cell (expTable rows).cols r q.1 = q.2 ∧ q.2 ≠ .null)) = l) (g : Row → ℝ)
    (hg : ∀ r ∈ l, Table.cell (expTable rows).cols r col = .num (g r)) :
    column scan table col conds c = (.ok (l.map g), c) := by
  unfold column
  rw [PyM.bind_ok (fetch_run scan hc (by simpa using h1) h2), hl, List.map_map]
  have := numbers_map ((fun r : List Cell => r.headD .null) ∘ fun r => List.map (Table.cell (expTable rows).cols r) [col]) g l hg
  rw [this]
  rfl

open Classical in
private theorem filter_setting {ok : Setting → Prop} {rows : List Row} (hp : Plain ok rows) (tr : String) (seed : ℤ) (p d : ℝ) :
    (rows.filter fun r => [("Transform", Cell.text tr), ("Seed", .num seed), ("Power", .num p), ("Damping", .num d)].all fun q =>
      decide (Table.cell (expTable rows).cols r q.1 = q.2 ∧ q.2 ≠ .null)) = pick tr seed p d rows := by
  refine List.filter_congr fun r hr => ?_
  obtain ⟨s, seed', it, a, b, -, rfl⟩ := hp r hr
  rw [Bool.eq_iff_iff]
  simp only [List.all_cons, List.all_nil, cell_transform, cell_seed, cell_power, cell_damping, Bool.and_true, Bool.and_eq_true,
    decide_eq_true_eq, Cell.text.injEq, Cell.num.injEq, Int.cast_inj, ne_eq, reduceCtorEq, not_false_eq_true, and_true]
  constructor
  · rintro ⟨rfl, rfl, rfl, rfl⟩
    exact ⟨it, a, b, rfl⟩
  · rintro ⟨it', a', b', e⟩
    obtain ⟨e1, e2, e3, e4, -⟩ := expRow_inj e
    exact ⟨e1, e2, e3, e4⟩

private theorem visit_sorted (scan : Scan) (t : Table) {l : List Row} (h : l.Pairwise fun a b => keyLe (t.key a) (t.key b)) :
    scan.visit t l = l := by
  classical
  cases scan with
  | rowid => rfl
  | index => exact h.insertionSort_eq

private theorem numbered_sorted (rows : List Row) (tr : String) (seed : ℤ) (p d : ℝ) (l : List (ℝ × ℝ)) :
    (l.mapIdx fun k s => expRow tr seed p d (k + 1) s.1 s.2).Pairwise fun a b => keyLe ((expTable rows).key a) ((expTable rows).key b) := by
  rw [List.pairwise_iff_getElem]
  intro i j hi hj hij
  simp only [List.getElem_mapIdx, key_expRow]
  refine .inr ⟨rfl, .inr ⟨rfl, .inl ?_⟩⟩
  show (i : ℝ) + 1 < j + 1
  have : (i : ℝ) < j := by exact_mod_cast hij
  linarith

private theorem cell_val {rows : List Row} {col : String} {f : ℝ × ℝ → ℝ} (hcol : col = "RMSE" ∧ f = Prod.fst ∨ col = "NLL" ∧ f = Prod.snd)
    (tr : String) (seed : ℤ) (p d it : ℝ) (s : ℝ × ℝ) :
    Table.cell (expTable rows).cols (expRow tr seed p d it s.1 s.2) col = .num (f s) := by
  rcases hcol with ⟨rfl, rfl⟩ | ⟨rfl, rfl⟩ <;> rfl

private theorem column_setting {dyn exp : String} (hne : dyn ≠ exp) {ok : Setting → Prop} {file : Tables} (h : AfterRuns dyn exp ok file)
    {rows : List Row} (hrows : file exp = some (expTable rows)) (tr : String) (seed : ℤ) (p d : ℝ) :
    ∃ scores : List (ℝ × ℝ), StoredScores rows tr seed p d scores ∧ ∀ scan col f,
      (col = "RMSE" ∧ f = Prod.fst ∨ col = "NLL" ∧ f = Prod.snd) →
      column scan exp col [("Transform", .text tr), ("Seed", .num seed), ("Power", .num p), ("Damping", .num d)] (Conn.connect file) =
        (.ok (scores.map f), Conn.connect file) := by
  classical
  obtain ⟨-, e, -, he, hp, hn, -⟩ := after_runs hne h
  have : e = rows := by
    rcases he with he | ⟨he, -⟩
    · rw [hrows, Option.some.injEq] at he
      simpa [expTable] using he.symm
    · rw [hrows] at he
      simp at he
  subst this
  obtain ⟨l, hl⟩ := hn tr seed p d
  refine ⟨l, ⟨fun k s hk => ?_, fun it a b hm => ?_⟩, fun scan col f hcol => ?_⟩
  · have : expRow tr seed p d (k + 1) s.1 s.2 ∈ pick tr seed p d e := by
      rw [hl]
      obtain ⟨hk', rfl⟩ := List.getElem?_eq_some_iff.1 hk
      exact List.mem_iff_getElem.2 ⟨k, by simpa using hk', by rw [List.getElem_mapIdx]⟩
    exact (List.mem_filter.1 this).1
  · have : expRow tr seed p d it a b ∈ pick tr seed p d e := List.mem_filter.2 ⟨hm, decide_eq_true ⟨_, _, _, rfl⟩⟩
    rw [hl] at this
    obtain ⟨k, hk, e'⟩ := List.mem_iff_getElem.1 this
    rw [List.getElem_mapIdx] at e'
    obtain ⟨-, -, -, -, e1, e2, e3⟩ := expRow_inj e'
    refine ⟨k, List.getElem?_eq_some_iff.2 ⟨by simpa using hk, Prod.ext e2 e3⟩, e1.symm⟩
  · have hv : scan.visit (expTable e) (pick tr seed p d e) = l.mapIdx fun k s => expRow tr seed p d (k + 1) s.1 s.2 := by
      rw [hl, visit_sorted scan _ (numbered_sorted e tr seed p d l)]
    rw [← filter_setting hp] at hv
    have hcell : ∀ r ∈ l.mapIdx fun k s => expRow tr seed p d (k + 1) s.1 s.2, ∃ x, Table.cell (expTable e).cols r col = .num x := by
      intro r hr
      obtain ⟨k, hk, rfl⟩ := List.mem_iff_getElem.1 hr
      rw [List.getElem_mapIdx]
      exact ⟨_, cell_val hcol ..⟩
    choose! g hg using hcell
    rw [column_run scan hrows (by rcases hcol with ⟨rfl, -⟩ | ⟨rfl, -⟩ <;> simp [expTable]) (by simp [expTable]) hv g hg]
    congr 2
    refine List.ext_getElem (by simp) fun k h1 h2 => ?_
    rw [List.getElem_map, List.getElem_map]
    have hk : k < l.length := by simpa using h2
    have h3 := hg _ (List.getElem_mem (l := l.mapIdx fun k s => expRow tr seed p d (k + 1) s.1 s.2) (n := k) (by simpa using hk))
    rw [List.getElem_mapIdx, cell_val hcol] at h3
    rw [List.getElem_mapIdx]
    exact (Cell.num.inj h3).symm

/-- **C108.** After any number of sweeps, killed or not, a query for the scores of a setting and a seed returns them in the order of the
iterations, though it does not ask for any order: the `k`-th number is the score of iteration `k`, and none is missing in between.  It does
not matter in which of its two orders sqlite visits the table. -/
theorem C108_in_order {dyn exp : String} (hne : dyn ≠ exp) {ok : Setting → Prop} {file : Tables} (h : AfterRuns dyn exp ok file)
    {rows : List Row} (hrows : file exp = some (expTable rows)) (tr : String) (seed : ℤ) (power damping : ℝ) :
    ∃ scores : List (ℝ × ℝ), StoredScores rows tr seed power damping scores ∧ ∀ scan : Scan,
      column scan exp "RMSE" [("Transform", .text tr), ("Seed", .num seed), ("Power", .num power), ("Damping", .num damping)]
        (Conn.connect file) = (.ok (scores.map Prod.fst), Conn.connect file) ∧
      column scan exp "NLL" [("Transform", .text tr), ("Seed", .num seed), ("Power", .num power), ("Damping", .num damping)]
        (Conn.connect file) = (.ok (scores.map Prod.snd), Conn.connect file) := by
  obtain ⟨scores, h1, h2⟩ := column_setting hne h hrows tr seed power damping
  exact ⟨scores, h1, fun scan => ⟨h2 scan _ _ (.inl ⟨rfl, rfl⟩), h2 scan _ _ (.inr ⟨rfl, rfl⟩)⟩⟩

/-! ## Curves -/

private theorem plotRows_eq {N T : ℕ} {data : List (List ℝ)} (h0 : data ≠ []) (h1 : data.length = N) (h2 : ∀ a ∈ data, a.length = T) :
    plotRows data = Plot.plot1d (Matrix.of fun (i : Fin N) (t : Fin T) => (data.getD i []).getD t 0) := by
  subst h1
  cases data with
  | nil => exact absurd rfl h0
  | cons a l =>
    obtain rfl : a.length = T := h2 a (by simp)
    exact if_pos fun b hb => h2 b (by simp [hb])

private theorem plotRows_map {seeds : List ℤ} (h0 : seeds ≠ []) (T : ℕ) (g : ℤ → ℕ → ℝ) :
    plotRows (seeds.map fun s => (List.range T).map (g s)) =
      Plot.plot1d (Matrix.of fun (i : Fin seeds.length) (t : Fin T) => g (seeds.get i) t) := by
  rw [plotRows_eq (N := seeds.length) (T := T) (by simpa using h0) (by simp) (by
    intro a ha
    obtain ⟨s, -, rfl⟩ := List.mem_map.1 ha
    simp)]
  congr 1
  ext i t
  simp

/-- The scores of a setting if the rows stored are known. -/
private theorem scores_unique {rows : List Row} {tr : String} {seed : ℤ} {p d : ℝ} {scores : List (ℝ × ℝ)}
    (h : StoredScores rows tr seed p d scores) {T : ℕ} {score : ℕ → ℝ × ℝ}
    (hs : ∀ it a b, expRow tr seed p d it a b ∈ rows ↔ ∃ k : ℕ, k < T ∧ it = k + 1 ∧ (a, b) = score k) :
    scores = (List.range T).map score := by
  refine List.ext_getElem? fun k => ?_
  by_cases hk : k < T
  · obtain ⟨k', e1, e2⟩ := h.2 _ _ _ ((hs (k + 1) (score k).1 (score k).2).2 ⟨k, hk, rfl, rfl⟩)
    have : k' = k := by
      have : (k' : ℝ) = k := by linarith
      exact_mod_cast this
    rw [this] at e1
    rw [e1]
    simp [hk]
  · rw [List.getElem?_eq_none (l := (List.range T).map score) (by simpa using hk)]
    by_contra hne
    obtain ⟨s, hs'⟩ := Option.ne_none_iff_exists'.1 hne
    obtain ⟨j, hj, e, -⟩ := (hs _ _ _).1 (h.1 k s hs')
    have : k = j := by
      have : (k : ℝ) = j := by linarith
      exact_mod_cast this
    omega

private theorem perSeed_run {scan : Scan} {exp metric tr : String} {p d : ℝ} {c : Conn} {T : ℕ} {g : ℤ → ℕ → ℝ} (hT : T ≠ 1) :
    ∀ seeds : List ℤ, (∀ seed ∈ seeds, column scan exp metric
      [("Transform", .text tr), ("Seed", .num seed), ("Power", .num p), ("Damping", .num d)] c = (.ok ((List.range T).map (g seed)), c)) →
    perSeed scan exp metric tr "Power" p "Damping" d seeds c = (.ok (seeds.map fun s => (List.range (min T 50)).map (g s)), c)
  | [], _ => rfl
  | seed :: seeds, h => by
    have hcut : cut ((List.range T).map (g seed)) = .ok ((List.range (min T 50)).map (g seed)) := by
      unfold cut
      rw [if_neg (by simpa using hT), ← List.map_take, List.take_range, min_comm]
    rw [perSeed, PyM.bind_ok (h seed (by simp)), PyM.lift_bind_eq hcut, PyM.bind_ok (perSeed_run hT seeds fun s hs => h s (by simp [hs]))]
    rfl

/-- **C108.** The curves of `plot_experiment` over the iterations, for stored rows of the iterations up to `T`: at iteration `t` the line is
the average over the seeds of the scores stored for iteration `t`, and the band reaches one standard deviation to each side; no more than
fifty iterations are drawn. -/
theorem C108_curve {dyn exp : String} (hne : dyn ≠ exp) {ok : Setting → Prop} {file : Tables} (h : AfterRuns dyn exp ok file)
    {rows : List Row} (hrows : file exp = some (expTable rows)) (tr : String) (power damping : ℝ) {seeds : List ℤ} (h0 : seeds ≠ [])
    {T : ℕ} (hT : T ≠ 1) (score : ℤ → ℕ → ℝ × ℝ)
    (hs : ∀ seed ∈ seeds, ∀ it a b, expRow tr seed power damping it a b ∈ rows ↔ ∃ k : ℕ, k < T ∧ it = k + 1 ∧ (a, b) = score seed k)
    (scan : Scan) (metric : String) (f : ℝ × ℝ → ℝ) (hm : metric = "RMSE" ∧ f = Prod.fst ∨ metric = "NLL" ∧ f = Prod.snd) :
    let x : Matrix (Fin seeds.length) (Fin (min T 50)) ℝ := Matrix.of fun i t => f (score (seeds.get i) t)
    let time := (List.range (min T 50)).map (· + 1)
    (plotExperiment scan exp metric tr "Power" power "Damping" damping seeds (Conn.connect file)).1 =
      .ok (.line time (List.ofFn fun t => [avg x t]) :: if 1 < seeds.length then
        [.fill time (List.ofFn fun t => some (avg x t - spread x t)) (List.ofFn fun t => some (avg x t + spread x t))] else []) := by
  intro x time
  have hcol : ∀ seed ∈ seeds, column scan exp metric
      [("Transform", .text tr), ("Seed", .num seed), ("Power", .num power), ("Damping", .num damping)] (Conn.connect file) =
      (.ok ((List.range T).map fun k => f (score seed k)), Conn.connect file) := fun seed hseed => by
    obtain ⟨scores, h1, h2⟩ := column_setting hne h hrows tr seed power damping
    rw [h2 scan metric f hm, scores_unique h1 (hs seed hseed), List.map_map]
    rfl
  unfold plotExperiment
  rw [PyM.bind_ok (perSeed_run hT seeds hcol), plotRows_map h0]
  rw [(C93_drawn (List.length_pos_iff.2 h0) x).2]
  rfl

/-- **C108.** With a single iteration stored nothing is drawn: `IndexError`. -/
theorem C108_curve_single {dyn exp : String} (hne : dyn ≠ exp) {ok : Setting → Prop} {file : Tables} (h : AfterRuns dyn exp ok file)
    {rows : List Row} (hrows : file exp = some (expTable rows)) (tr : String) (power damping : ℝ) (seed : ℤ) (seeds : List ℤ)
    (score : ℝ × ℝ) (hs : ∀ it a b, expRow tr seed power damping it a b ∈ rows ↔ it = 1 ∧ (a, b) = score)
    (scan : Scan) (metric : String) (hm : metric = "RMSE" ∨ metric = "NLL") :
    (plotExperiment scan exp metric tr "Power" power "Damping" damping (seed :: seeds) (Conn.connect file)).1 = .error .index := by
  obtain ⟨scores, h1, h2⟩ := column_setting hne h hrows tr seed power damping
  have h3 := scores_unique h1 (T := 1) (score := fun _ => score) fun it a b => by
    rw [hs]
    constructor
    · rintro ⟨rfl, e⟩
      exact ⟨0, by simp, by simp, e⟩
    · rintro ⟨k, hk, e1, e2⟩
      obtain rfl : k = 0 := by omega
      exact ⟨by simpa using e1, e2⟩
  obtain ⟨f, hf⟩ : ∃ f : ℝ × ℝ → ℝ, metric = "RMSE" ∧ f = Prod.fst ∨ metric = "NLL" ∧ f = Prod.snd :=
    hm.elim (fun h => ⟨_, .inl ⟨h, rfl⟩⟩) fun h => ⟨_, .inr ⟨h, rfl⟩⟩
  have hcut : cut (scores.map f) = .error .index := if_pos (by simp [h3])
  unfold plotExperiment
  rw [perSeed, PyM.bind_run, PyM.bind_run, h2 scan metric f hf]
  dsimp only
  rw [hcut]
  rfl

/-- **C108.** The line of `Notebooks/PlotPerformanceSingleSeed.ipynb` shows at iteration `t` the score stored for iteration `t`, for all
iterations stored, without a band. -/
theorem C108_single_seed {dyn exp : String} (hne : dyn ≠ exp) {ok : Setting → Prop} {file : Tables} (h : AfterRuns dyn exp ok file)
    {rows : List Row} (hrows : file exp = some (expTable rows)) (tr : String) (power damping : ℝ) (seed : ℤ) {T : ℕ} (hT : T ≠ 0)
    (score : ℕ → ℝ × ℝ)
    (hs : ∀ it a b, expRow tr seed power damping it a b ∈ rows ↔ ∃ k : ℕ, k < T ∧ it = k + 1 ∧ (a, b) = score k)
    (scan : Scan) (metric : String) (f : ℝ × ℝ → ℝ) (hm : metric = "RMSE" ∧ f = Prod.fst ∨ metric = "NLL" ∧ f = Prod.snd) :
    (plotSingle scan exp metric tr power damping seed (Conn.connect file)).1 =
      .ok [.line ((List.range T).map (· + 1)) ((List.range T).map fun k => [f (score k)])] := by
  obtain ⟨scores, h1, h2⟩ := column_setting hne h hrows tr seed power damping
  have hcol := h2 scan metric f hm
  rw [scores_unique h1 hs, List.map_map] at hcol
  unfold plotSingle
  rw [PyM.bind_ok hcol, if_neg (by simpa using hT)]
  have := plotRows_map (seeds := [seed]) (by simp) T fun _ => f ∘ score
  rw [List.map_cons, List.map_nil] at this
  rw [this, (C93_drawn (by simp) _).2, if_neg (by simp)]
  refine congrArg (fun l => Except.ok [Plot.Draw.line _ l]) ?_
  refine List.ext_getElem (by simp) fun k h1 h2 => ?_
  simp [avg]

/-! ## Heat maps need 361 rows -/

private theorem rows_eq {exp : String} {file : Tables} {e rows : List Row}
    (he : file exp = some (expTable e) ∨ file exp = none ∧ e = []) (hrows : file exp = some (expTable rows)) : e = rows := by
  rcases he with he | ⟨he, -⟩
  · rw [hrows, Option.some.injEq] at he
    simpa [expTable] using he.symm
  · rw [hrows] at he
    simp at he

private theorem visit_perm (scan : Scan) (t : Table) (l : List Row) : (scan.visit t l).Perm l := by
  classical
  cases scan with
  | rowid => exact .refl _
  | index => exact List.perm_insertionSort _ l

open Classical in
private theorem filter_iter {ok : Setting → Prop} {rows : List Row} (hp : Plain ok rows) (tr : String) (seed : ℤ) (it : ℝ) :
    (rows.filter fun r => [("Transform", Cell.text tr), ("Seed", .num seed), ("Iter", .num it)].all fun q =>
      decide (Table.cell (expTable rows).cols r q.1 = q.2 ∧ q.2 ≠ .null)) =
      rows.filter fun r => decide (∃ p d a b, r = expRow tr seed p d it a b) := by
  refine List.filter_congr fun r hr => ?_
  obtain ⟨s, seed', it', a, b, -, rfl⟩ := hp r hr
  rw [Bool.eq_iff_iff]
  simp only [List.all_cons, List.all_nil, cell_transform, cell_seed, cell_iter, Bool.and_true, Bool.and_eq_true,
    decide_eq_true_eq, Cell.text.injEq, Cell.num.injEq, Int.cast_inj, ne_eq, reduceCtorEq, not_false_eq_true, and_true]
  constructor
  · rintro ⟨rfl, rfl, rfl⟩
    exact ⟨_, _, a, b, rfl⟩
  · rintro ⟨p, d, a', b', e⟩
    obtain ⟨e1, e2, -, -, e5, -⟩ := expRow_inj e
    exact ⟨e1, e2, e5⟩

/-- What `make_image_data` makes of rows. -/
private theorem makeImageData_run {scan : Scan} {exp tr : String} {rows : List Row} {c : Conn} (hc : c.work exp = some (expTable rows))
    {seed : ℤ} {iters : ℕ} {ok : Setting → Prop} (hp : Plain ok rows) {l : List Row} {g : Fin 4 → Row → ℝ}
    (hl : ∀ r ∈ l, Table.cell (expTable rows).cols r "RMSE" = .num (g 0 r) ∧ Table.cell (expTable rows).cols r "NLL" = .num (g 1 r) ∧
      Table.cell (expTable rows).cols r "Power" = .num (g 2 r) ∧ Table.cell (expTable rows).cols r "Damping" = .num (g 3 r))
    (hv : open Classical in scan.visit (expTable rows) (rows.filter fun r => decide (∃ p d a b, r = expRow tr seed p d iters a b)) = l) :
    makeImageData scan exp tr seed iters c = (if l.length = 361 then .ok ⟨Matrix.of fun i j => (l.map (g 0)).getD (i.val * 19 + j.val) 0,
      Matrix.of fun i j => (l.map (g 1)).getD (i.val * 19 + j.val) 0, Matrix.of fun i j => (l.map (g 2)).getD (i.val * 19 + j.val) 0,
      Matrix.of fun i j => (l.map (g 3)).getD (i.val * 19 + j.val) 0⟩ else .error .value, c) := by
  classical
  unfold makeImageData
  rw [PyM.bind_ok (fetch_run scan hc (by simp [expTable]) (by simp [expTable])), filter_iter hp, hv]
  by_cases h0 : l = []
  · subst h0
    rfl
  · have hpart : ∀ (k : ℕ) (col : String) (j : Fin 4), ["RMSE", "NLL", "Power", "Damping"][k]? = some col →
        (∀ r ∈ l, Table.cell (expTable rows).cols r col = .num (g j r)) →
        part (l.map fun r => ["RMSE", "NLL", "Power", "Damping"].map (Table.cell (expTable rows).cols r)) k = .ok (l.map (g j)) :=
      fun k col j hk hj => by
        unfold part
        rw [List.map_map]
        refine numbers_map _ (g j) l fun r hr => ?_
        rw [← hj r hr]
        show (["RMSE", "NLL", "Power", "Damping"].map (Table.cell (expTable rows).cols r)).getD k .null = _
        rw [List.getD_eq_getElem?_getD, List.getElem?_map, hk]
        rfl
    rw [if_neg (by simpa using h0), PyM.lift_bind_eq (hpart 1 "NLL" 1 rfl fun r hr => (hl r hr).2.1),
      PyM.lift_bind_eq (hpart 0 "RMSE" 0 rfl fun r hr => (hl r hr).1), PyM.lift_bind_eq (hpart 2 "Power" 2 rfl fun r hr => (hl r hr).2.2.1),
      PyM.lift_bind_eq (hpart 3 "Damping" 3 rfl fun r hr => (hl r hr).2.2.2)]
    by_cases h1 : l.length = 361
    · have hre : ∀ j, reshape (l.map (g j)) = .ok (Matrix.of fun i k => (l.map (g j)).getD (i.val * 19 + k.val) 0) :=
        fun j => if_pos (by simpa using h1)
      rw [PyM.lift_bind_eq (hre 2), PyM.lift_bind_eq (hre 3), PyM.lift_bind_eq (hre 1), PyM.lift_bind_eq (hre 0), if_pos h1]
      rfl
    · have hre : reshape (l.map (g 2)) = .error .value := if_neg (by simpa using h1)
      rw [if_neg h1, PyM.bind_run, hre]
      rfl

private theorem plain_cells {ok : Setting → Prop} {rows l : List Row} (hp : Plain ok rows) (hl : l ⊆ rows) :
    ∃ g : Fin 4 → Row → ℝ, ∀ r ∈ l, Table.cell (expTable rows).cols r "RMSE" = .num (g 0 r) ∧
      Table.cell (expTable rows).cols r "NLL" = .num (g 1 r) ∧ Table.cell (expTable rows).cols r "Power" = .num (g 2 r) ∧
      Table.cell (expTable rows).cols r "Damping" = .num (g 3 r) := by
  have : ∀ r ∈ l, ∃ v : Fin 4 → ℝ, Table.cell (expTable rows).cols r "RMSE" = .num (v 0) ∧
      Table.cell (expTable rows).cols r "NLL" = .num (v 1) ∧ Table.cell (expTable rows).cols r "Power" = .num (v 2) ∧
      Table.cell (expTable rows).cols r "Damping" = .num (v 3) := fun r hr => by
    obtain ⟨s, seed, it, a, b, -, rfl⟩ := hp r (hl hr)
    exact ⟨![a, b, s.power, s.damping], rfl, rfl, rfl, rfl⟩
  choose! v hv using this
  exact ⟨fun j r => v r j, hv⟩

open Classical in
/-- **C108.** `make_image_data` needs exactly `19 · 19` stored rows for the transform, seed and iteration: any other number, also none, is a
`ValueError`. -/
theorem C108_heatmap_size {dyn exp : String} (hne : dyn ≠ exp) {ok : Setting → Prop} {file : Tables} (h : AfterRuns dyn exp ok file)
    {rows : List Row} (hrows : file exp = some (expTable rows)) (scan : Scan) (tr : String) (seed : ℤ) (iters : ℕ) :
    (makeImageData scan exp tr seed iters (Conn.connect file)).1 = .error .value ↔
      (rows.filter fun r => decide (∃ p d a b, r = expRow tr seed p d iters a b)).length ≠ 19 * 19 := by
  obtain ⟨-, e, -, he, hp, -, -⟩ := after_runs hne h
  obtain rfl := rows_eq he hrows
  have hperm := visit_perm scan (expTable e) (e.filter fun r => decide (∃ p d a b, r = expRow tr seed p d iters a b))
  obtain ⟨g, hg⟩ := plain_cells hp (l := scan.visit (expTable e) (e.filter fun r => decide (∃ p d a b, r = expRow tr seed p d iters a b)))
    fun r hr => (List.mem_filter.1 (hperm.subset hr)).1
  rw [makeImageData_run hrows hp hg rfl, hperm.length_eq]
  constructor
  · intro h1 h2
    rw [if_pos h2] at h1
    simp at h1
  · intro h1
    exact if_neg h1

open Classical in
private theorem few {P D : List ℝ} {rows : List Row} (hp : Plain (fun s => s.power ∈ P ∧ s.damping ∈ D) rows) (hk : Keyed 5 rows)
    (tr : String) (seed : ℤ) (it : ℝ) :
    (rows.filter fun r => decide (∃ p d a b, r = expRow tr seed p d it a b)).length ≤ P.length * D.length := by
  set F := rows.filter fun r => decide (∃ p d a b, r = expRow tr seed p d it a b) with hF
  have hmem : ∀ r ∈ F, ∃ p d a b, p ∈ P ∧ d ∈ D ∧ r = expRow tr seed p d it a b := fun r hr => by
    obtain ⟨h1, h2⟩ := List.mem_filter.1 hr
    obtain ⟨p, d, a, b, rfl⟩ := of_decide_eq_true h2
    obtain ⟨s, seed', it', a', b', ⟨s1, s2⟩, e⟩ := hp _ h1
    obtain ⟨-, -, rfl, rfl, -⟩ := expRow_inj e
    exact ⟨_, _, a, b, s1, s2, rfl⟩
  choose! p d a b h1 h2 h3 using hmem
  have hnd : (F.map fun r => (p r, d r)).Nodup := by
    unfold List.Nodup
    rw [List.pairwise_map]
    refine (List.Pairwise.filter _ hk).imp_of_mem fun {r q} hr hq hne e => hne ?_
    rw [h3 r hr, h3 q hq]
    simp only [Prod.mk.injEq] at e
    simp [expRow, e.1, e.2]
  have hsub : (F.map fun r => (p r, d r)) ⊆ P ×ˢ D := fun q hq => by
    obtain ⟨r, hr, rfl⟩ := List.mem_map.1 hq
    exact List.mem_product.2 ⟨h1 r hr, h2 r hr⟩
  have := (List.subperm_of_subset hnd hsub).length_le
  rwa [List.length_map, List.length_product] at this

/-- **C108.** No heat map can be drawn after sweeps over fewer than 361 pairs of power and damping, such as the sweeps of
`Experiments/EP_FullSweep.py` as they stand (ten powers, two dampings), whatever seeds are asked for: `ValueError`. -/
theorem C108_heatmap_small {dyn exp : String} (hne : dyn ≠ exp) {P D : List ℝ} (hPD : P.length * D.length < 361) {file : Tables}
    (h : AfterRuns dyn exp (fun s => s.power ∈ P ∧ s.damping ∈ D) file) {rows : List Row} (hrows : file exp = some (expTable rows))
    (scan : Scan) (tr metric : String) (iters : ℕ) (seed : ℤ) (seeds : List ℤ) :
    (plotSweep scan exp tr iters metric (some (seed :: seeds)) (Conn.connect file)).1 = .error .value ∧
      (rows ≠ [] → (plotSweep scan exp tr iters metric none (Conn.connect file)).1 = .error .value) := by
  classical
  obtain ⟨-, e, -, he, hp, -, hk⟩ := after_runs hne h
  obtain rfl := rows_eq he hrows
  have hbad : ∀ seed : ℤ, makeImageData scan exp tr seed iters (Conn.connect file) = (.error .value, Conn.connect file) := fun seed => by
    have hperm := visit_perm scan (expTable e) (e.filter fun r => decide (∃ p d a b, r = expRow tr seed p d iters a b))
    obtain ⟨g, hg⟩ := plain_cells hp (l := scan.visit (expTable e) (e.filter fun r => decide (∃ p d a b, r = expRow tr seed p d iters a b)))
      fun r hr => (List.mem_filter.1 (hperm.subset hr)).1
    rw [makeImageData_run hrows hp hg rfl, hperm.length_eq, if_neg]
    have := few hp hk tr seed iters
    omega
  have hall : e.filter (fun r => ([] : List (String × Cell)).all fun q =>
      decide (Table.cell (expTable e).cols r q.1 = q.2 ∧ q.2 ≠ .null)) = e := by simp
  have hsd : ∀ r ∈ e, ∃ s : ℤ, Table.cell (expTable e).cols r "Seed" = .num s := fun r hr => by
    obtain ⟨s, seed, it, a, b, -, rfl⟩ := hp r hr
    exact ⟨seed, rfl⟩
  choose! sd hsd using hsd
  have hcol := column_run scan (c := Conn.connect file) hrows (col := "Seed") (conds := []) (by simp [expTable]) (by simp)
    (l := scan.visit (expTable e) e) (by rw [hall]) (fun r => (sd r : ℝ)) fun r hr => hsd r ((visit_perm scan _ e).subset hr)
  have hds : distinctSeeds scan exp (Conn.connect file) =
      (.ok ((scan.visit (expTable e) e).map fun r => (sd r : ℝ)).dedup, Conn.connect file) := by
    unfold distinctSeeds
    rw [PyM.bind_ok hcol]
    rfl
  have himg : ∀ (s : ℤ) (l : List ℝ), images scan exp tr iters ((s : ℝ) :: l) (Conn.connect file) = (.error .value, Conn.connect file) :=
    fun s l => by
      rw [images, PyM.bind_run, hbad s]
  constructor
  · unfold plotSweep allSeedsImage
    rw [PyM.bind_run, PyM.bind_ok hds]
    dsimp only
    rw [List.map_cons, PyM.bind_run, himg]
  · intro hne'
    obtain ⟨s, l, hs⟩ : ∃ (s : ℤ) (l : List ℝ), ((scan.visit (expTable e) e).map fun r => (sd r : ℝ)).dedup = (s : ℝ) :: l := by
      rcases hd : ((scan.visit (expTable e) e).map fun r => (sd r : ℝ)).dedup with _ | ⟨a, l⟩
      · rw [List.dedup_eq_nil, List.map_eq_nil_iff] at hd
        have := (visit_perm scan (expTable e) e).length_eq
        rw [hd] at this
        exact absurd (List.length_eq_zero_iff.1 this.symm) hne'
      · have : a ∈ ((scan.visit (expTable e) e).map fun r => (sd r : ℝ)).dedup := by rw [hd]; simp
        obtain ⟨r, -, rfl⟩ := List.mem_map.1 (List.mem_dedup.1 this)
        exact ⟨sd r, l, rfl⟩
    unfold plotSweep allSeedsImage
    rw [PyM.bind_run, PyM.bind_ok hds]
    dsimp only
    rw [hs, PyM.bind_run, himg]

/-! ## Baselines -/

private theorem keyed_unique {k : ℕ} {rows : List Row} (hk : Keyed k rows) {q r : Row} (hq : q ∈ rows) (hr : r ∈ rows)
    (e : q.take k = r.take k) : q = r := by
  obtain ⟨i, hi, rfl⟩ := List.mem_iff_getElem.1 hq
  obtain ⟨j, hj, rfl⟩ := List.mem_iff_getElem.1 hr
  rcases lt_trichotomy i j with h | rfl | h
  · exact absurd e (List.pairwise_iff_getElem.1 hk i j hi hj h)
  · rfl
  · exact absurd e.symm (List.pairwise_iff_getElem.1 hk j i hj hi h)

open Classical in
private theorem filter_key {rows : List Row} (hk : Keyed 5 rows) {tr : String} {seed : ℤ}
    {p d it : ℝ} (F : Row → Bool) (hF : ∀ r ∈ rows, F r = decide (∃ a b, r = expRow tr seed p d it a b)) :
    (∃ a b, expRow tr seed p d it a b ∈ rows ∧ rows.filter F = [expRow tr seed p d it a b]) ∨
      (∀ a b, expRow tr seed p d it a b ∉ rows) ∧ rows.filter F = [] := by
  rw [List.filter_congr hF]
  rcases hf : rows.filter (fun r => decide (∃ a b, r = expRow tr seed p d it a b)) with _ | ⟨r, l⟩
  · refine .inr ⟨fun a b hm => ?_, rfl⟩
    have : expRow tr seed p d it a b ∈ rows.filter (fun r => decide (∃ a b, r = expRow tr seed p d it a b)) :=
      List.mem_filter.2 ⟨hm, decide_eq_true ⟨a, b, rfl⟩⟩
    rw [hf] at this
    simp at this
  · have hpair : (r :: l).Pairwise fun a b => a.take 5 ≠ b.take 5 := hf ▸ List.Pairwise.filter _ hk
    have hmem : ∀ q ∈ r :: l, q ∈ rows ∧ ∃ a b, q = expRow tr seed p d it a b := fun q hq => by
      rw [← hf] at hq
      exact ⟨(List.mem_filter.1 hq).1, of_decide_eq_true (List.mem_filter.1 hq).2⟩
    obtain ⟨hr, a, b, rfl⟩ := hmem r (by simp)
    refine .inl ⟨a, b, hr, ?_⟩
    cases l with
    | nil => rfl
    | cons q l =>
      obtain ⟨-, a', b', rfl⟩ := hmem q (by simp)
      exact ((List.pairwise_cons.1 hpair).1 (expRow tr seed p d it a' b') List.mem_cons_self rfl).elim

private theorem column_first {ok : Setting → Prop} {exp : String} {rows : List Row} (hp : Plain ok rows) (hk : Keyed 5 rows) {c : Conn}
    (hc : c.work exp = some (expTable rows)) (tr : String) (seed : ℤ) :
    (∃ a b, expRow tr seed 1 1 1 a b ∈ rows ∧ ∀ scan col f, (col = "RMSE" ∧ f = Prod.fst ∨ col = "NLL" ∧ f = Prod.snd) →
      column scan exp col [("Transform", .text tr), ("Seed", .num seed), ("Damping", .num 1), ("Power", .num 1), ("Iter", .num 1)] c =
        (.ok [f (a, b)], c)) ∨
    (∀ a b, expRow tr seed 1 1 1 a b ∉ rows) ∧ ∀ scan col, (col = "RMSE" ∨ col = "NLL") →
      column scan exp col [("Transform", .text tr), ("Seed", .num seed), ("Damping", .num 1), ("Power", .num 1), ("Iter", .num 1)] c =
        (.ok [], c) := by
  classical
  have hv : ∀ (scan : Scan) (l : List Row), l.length ≤ 1 → scan.visit (expTable rows) l = l := fun scan l hl => by
    rcases l with _ | ⟨r, _ | ⟨q, l⟩⟩
    · cases scan <;> rfl
    · cases scan <;> rfl
    · simp at hl
  refine (filter_key hk (tr := tr) (seed := seed) (p := 1) (d := 1) (it := 1) (fun r => [("Transform", Cell.text tr), ("Seed", .num seed),
      ("Damping", .num 1), ("Power", .num 1), ("Iter", .num 1)].all fun q =>
      decide (Table.cell (expTable rows).cols r q.1 = q.2 ∧ q.2 ≠ .null)) fun r hr => ?_).imp ?_ ?_
  · obtain ⟨s, seed', it', a, b, -, rfl⟩ := hp r hr
    rw [Bool.eq_iff_iff]
    simp only [List.all_cons, List.all_nil, cell_transform, cell_seed, cell_iter, cell_power, cell_damping, Bool.and_true, Bool.and_eq_true,
      decide_eq_true_eq, Cell.text.injEq, Cell.num.injEq, Int.cast_inj, ne_eq, reduceCtorEq, not_false_eq_true, and_true]
    constructor
    · rintro ⟨e1, e2, e3, e4, e5⟩
      exact ⟨a, b, by rw [e1, e2, e3, e4, e5]⟩
    · rintro ⟨a', b', e⟩
      obtain ⟨e1, e2, e3, e4, e5, -⟩ := expRow_inj e
      exact ⟨e1, e2, e4, e3, e5⟩
  · rintro ⟨a, b, h1, h2⟩
    refine ⟨a, b, h1, fun scan col f hcol => ?_⟩
    have := column_run scan hc (col := col) (by rcases hcol with ⟨rfl, -⟩ | ⟨rfl, -⟩ <;> simp [expTable])
      (conds := [("Transform", .text tr), ("Seed", .num seed), ("Damping", .num 1), ("Power", .num 1), ("Iter", .num 1)]) (by simp [expTable])
      (l := [expRow tr seed 1 1 1 a b]) (by rw [h2]; exact hv scan _ (by simp)) (fun _ => f (a, b)) (by
        intro r hr
        rw [List.mem_singleton.1 hr]
        exact cell_val hcol tr seed 1 1 1 (a, b))
    exact this
  · rintro ⟨h1, h2⟩
    refine ⟨h1, fun scan col hcol => ?_⟩
    exact column_run scan hc (col := col) (by rcases hcol with rfl | rfl <;> simp [expTable])
      (conds := [("Transform", .text tr), ("Seed", .num seed), ("Damping", .num 1), ("Power", .num 1), ("Iter", .num 1)]) (by simp [expTable])
      (l := []) (by rw [h2]; exact hv scan _ (by simp)) (fun _ => 0) (by simp)

/-- **C108.** The dashed lines of `first_iteration_mean` are the averages over the seeds of the scores stored for the first iteration with
power and damping one; a seed without such a row is an `IndexError`. -/
theorem C108_baseline {dyn exp : String} (hne : dyn ≠ exp) {ok : Setting → Prop} {file : Tables} (h : AfterRuns dyn exp ok file)
    {rows : List Row} (hrows : file exp = some (expTable rows)) (scan : Scan) (tr : String) (seeds : List ℤ) :
    (∀ score : ℤ → ℝ × ℝ, seeds ≠ [] → (∀ seed ∈ seeds, expRow tr seed 1 1 1 (score seed).1 (score seed).2 ∈ rows) →
      (firstIterationMean scan exp tr seeds (Conn.connect file)).1 =
        .ok ((seeds.map fun s => (score s).1).sum / seeds.length, (seeds.map fun s => (score s).2).sum / seeds.length)) ∧
    ∀ seed ∈ seeds, (∀ a b, expRow tr seed 1 1 1 a b ∉ rows) →
      (firstIterationMean scan exp tr seeds (Conn.connect file)).1 = .error .index := by
  obtain ⟨-, e, -, he, hp, -, hk⟩ := after_runs hne h
  obtain rfl := rows_eq he hrows
  have hsame : ∀ {seed : ℤ} {a b a' b' : ℝ}, expRow tr seed 1 1 1 a b ∈ e → expRow tr seed 1 1 1 a' b' ∈ e → a = a' ∧ b = b' := by
    intro seed a b a' b' h1 h2
    obtain ⟨-, -, -, -, -, e1, e2⟩ := expRow_inj (keyed_unique hk h1 h2 rfl)
    exact ⟨e1, e2⟩
  have hstep : ∀ (seed : ℤ) (l : List ℤ) (a b : ℝ), expRow tr seed 1 1 1 a b ∈ e →
      firstScores scan exp tr (seed :: l) (Conn.connect file) = ((firstScores scan exp tr l >>= fun rest => pure ((a, b) :: rest)) :
        PyM Conn (List (ℝ × ℝ))) (Conn.connect file) := by
    intro seed l a b hm
    rcases column_first hp hk (c := Conn.connect file) hrows tr seed with ⟨a', b', h1, h2⟩ | ⟨h1, -⟩
    · obtain ⟨rfl, rfl⟩ := hsame hm h1
      rw [firstScores]
      rw [PyM.bind_ok (h2 scan "RMSE" Prod.fst (.inl ⟨rfl, rfl⟩)), PyM.lift_bind_eq (show first [a] = .ok a from rfl),
        PyM.bind_ok (h2 scan "NLL" Prod.snd (.inr ⟨rfl, rfl⟩)), PyM.lift_bind_eq (show first [b] = .ok b from rfl)]
    · exact absurd hm (h1 a b)
  have hmiss : ∀ (seed : ℤ) (l : List ℤ), (∀ a b, expRow tr seed 1 1 1 a b ∉ e) →
      firstScores scan exp tr (seed :: l) (Conn.connect file) = (.error .index, Conn.connect file) := by
    intro seed l hm
    rcases column_first hp hk (c := Conn.connect file) hrows tr seed with ⟨a', b', h1, -⟩ | ⟨-, h2⟩
    · exact absurd h1 (hm a' b')
    · rw [firstScores]
      rw [PyM.bind_ok (h2 scan "RMSE" (.inl rfl))]
      rfl
  constructor
  · intro score h0 hs
    have : ∀ l : List ℤ, l ⊆ seeds → firstScores scan exp tr l (Conn.connect file) = (.ok (l.map score), Conn.connect file) := by
      intro l
      induction l with
      | nil => exact fun _ => rfl
      | cons seed l ih =>
        intro hl
        rw [hstep seed l _ _ (hs seed (hl (by simp))), PyM.bind_ok (ih fun s hs => hl (by simp [hs]))]
        rfl
    unfold firstIterationMean
    rw [PyM.bind_ok (this seeds (List.Subset.refl _)), if_neg (by simpa using h0), List.map_map, List.map_map, List.length_map]
    rfl
  · intro seed hseed hm
    have : ∀ l : List ℤ, seed ∈ l → (firstScores scan exp tr l (Conn.connect file)) = (.error .index, Conn.connect file) := by
      intro l
      induction l with
      | nil => simp
      | cons s l ih =>
        intro hl
        by_cases hs : ∃ a b, expRow tr s 1 1 1 a b ∈ e
        · obtain ⟨a, b, hs⟩ := hs
          have hne' : seed ≠ s := fun hse => hm a b (hse ▸ hs)
          rw [hstep s l a b hs, PyM.bind_run, ih ((List.mem_cons.1 hl).resolve_left hne')]
        · exact hmiss s l fun a b h => hs ⟨a, b, h⟩
    unfold firstIterationMean
    rw [PyM.bind_run, this seeds hseed]

/-! ## Heat maps of complete sweeps -/

/-- Between two settings of a sweep: the rows are known exactly. -/
private structure Exactly (cfg : Config) (c : Conn) (w : List Row) : Prop where
  work : c.work cfg.expTable = some (expTable w)
  saved : c.saved cfg.expTable = some (expTable w)
  dyn : ∃ d, c.work cfg.dynTable = some (dynTable d)

private theorem setting_exact {env : Env} {E : ℤ → Setting → List Row} (hE : Plan E) {jac : Jac} {draw : Draw} {cfg : Config}
    (hne : cfg.dynTable ≠ cfg.expTable) {x y : List Arr} {seed : ℤ} {s : Setting}
    (hrows : powerRows env jac draw cfg x y seed s = (E seed s, .ok ())) (override : Bool) {w : List Row} {c : Conn}
    (hc : Exactly cfg c w) (hf : Fresh w seed s) :
    ∃ c', sweepSetting env jac draw cfg x y seed override s c = (.ok true, c') ∧ Exactly cfg c' (w ++ E seed s) := by
  have hrun := sweepSetting_run env jac draw cfg x y seed override s hc.work (.inr fun ⟨r, hr, hm⟩ => hf r hr 50 hm)
  rw [hrows] at hrun
  have hadd : addRows 5 w (E seed s) = w ++ E seed s := addRows_fresh (fun r hr q hq e => by
    obtain ⟨it, hk⟩ := hE.key seed s r hr
    exact hf q hq it (e.trans hk)) (hE.keyed seed s)
  have hw := commitRows_work hc.work (E seed s)
  have hsv := commitRows_saved hc.work (E seed s)
  rw [hadd] at hw hsv
  refine ⟨_, hrun, ⟨?_, ?_, ?_⟩⟩
  · rw [hw, Function.update_self]
  · rw [hsv]
    split
    · next h0 => rw [h0, List.append_nil]; exact hc.saved
    · rw [Function.update_self]
  · obtain ⟨d, hd⟩ := hc.dyn
    exact ⟨d, by rw [hw, Function.update_of_ne hne]; exact hd⟩

private theorem fresh_append {E : ℤ → Setting → List Row} (hE : Plan E) {w : List Row} {seed seed' : ℤ} {s s' : Setting}
    (hw : Fresh w seed' s') (hne : ¬ (seed' = seed ∧ s' = s)) : Fresh (w ++ E seed s) seed' s' := by
  intro r hr it hk
  rcases List.mem_append.1 hr with hr | hr
  · exact hw r hr it hk
  · obtain ⟨it', hk'⟩ := hE.key seed s r hr
    rw [hk'] at hk
    simp only [List.cons.injEq, Cell.text.injEq, Cell.num.injEq, and_true, Int.cast_inj] at hk
    obtain ⟨a, b, -, d, f⟩ := hk
    refine hne ⟨b.symm, ?_⟩
    cases s; cases s'
    simp_all

private theorem settings_exact {env : Env} {E : ℤ → Setting → List Row} (hE : Plan E) {jac : Jac} {draws : Draws} {cfg : Config}
    (hne : cfg.dynTable ≠ cfg.expTable) {x y : List Arr} {seed : ℤ} (override : Bool) (ss : List Setting) (hss : ss.Nodup)
    (hrows : ∀ s ∈ ss, ∀ draw, powerRows env jac draw cfg x y seed s = (E seed s, .ok ())) :
    ∀ (ran : List Setting) (w : List Row) (c : Conn), Exactly cfg c w → (∀ s ∈ ss, Fresh w seed s) →
    ∃ c', sweepSettings env jac draws cfg x y seed override ran ss c = (.ok (), c') ∧ Exactly cfg c' (w ++ ss.flatMap (E seed)) := by
  induction ss with
  | nil => exact fun ran w c hc _ => ⟨c, rfl, by simpa using hc⟩
  | cons s ss ih =>
    intro ran w c hc hf
    obtain ⟨hs1, hs2⟩ := List.nodup_cons.1 hss
    obtain ⟨c1, r1, e1⟩ := setting_exact (env := env) hE hne (hrows s List.mem_cons_self (draws seed ran)) override hc (hf s (by simp))
    obtain ⟨c2, r2, e2⟩ := ih hs2 (fun s hs => hrows s (List.mem_cons_of_mem _ hs)) (ran ++ [s]) _ c1 e1 fun s' hs' =>
      fresh_append hE (hf s' (by simp [hs'])) fun ⟨_, e⟩ => hs1 (e ▸ hs')
    refine ⟨c2, ?_, by rw [List.flatMap_cons, ← List.append_assoc]; exact e2⟩
    rw [sweepSettings, PyM.bind_ok r1]
    exact r2

private theorem fresh_flatMap {E : ℤ → Setting → List Row} (hE : Plan E) {seed seed' : ℤ} {s' : Setting} (hne : seed' ≠ seed)
    (ss : List Setting) : ∀ w : List Row, Fresh w seed' s' → Fresh (w ++ ss.flatMap (E seed)) seed' s' := by
  induction ss with
  | nil => simp
  | cons s ss ih =>
    intro w hw
    rw [List.flatMap_cons, ← List.append_assoc]
    exact ih _ (fresh_append hE hw fun h => hne h.1)

private theorem seeds_exact {env : Env} {E : ℤ → Setting → List Row} (hE : Plan E) {jac : Jac} {draws : Draws} {cfg : Config}
    (hne : cfg.dynTable ≠ cfg.expTable) (override : Bool) (ss : List Setting) (hss : ss.Nodup) (seeds : List ℤ) (hseeds : seeds.Nodup)
    (hrows : ∀ seed ∈ seeds, ∃ data, cfg.sim seed = .ok data ∧ data ≠ [] ∧ ∀ s ∈ ss, ∀ draw,
      powerRows env jac draw cfg (data.map Prod.fst) (data.map Prod.snd) seed s = (E seed s, .ok ())) :
    ∀ (w : List Row) (c : Conn), Exactly cfg c w → (∀ seed ∈ seeds, ∀ s ∈ ss, Fresh w seed s) →
    ∃ c', sweepSeeds env jac draws cfg ss override seeds c = (.ok (), c') ∧
      Exactly cfg c' (w ++ seeds.flatMap fun seed => ss.flatMap (E seed)) := by
  induction seeds with
  | nil => exact fun w c hc _ => ⟨c, rfl, by simpa using hc⟩
  | cons seed seeds ih =>
    intro w c hc hf
    obtain ⟨hs1, hs2⟩ := List.nodup_cons.1 hseeds
    obtain ⟨data, hsim, hd, hr⟩ := hrows seed List.mem_cons_self
    obtain ⟨d, hdyn⟩ := hc.dyn
    obtain ⟨c0, i1, i2, i3, -⟩ := insertDynamics_run cfg.dynTable seed data 0 hdyn
    have i1' : Db.insertDynamicsData cfg.dynTable data seed c = (.ok (), c0) := i1
    have st0 : Exactly cfg c0 w := ⟨by rw [i2, Function.update_of_ne hne.symm]; exact hc.work, by rw [i3]; exact hc.saved,
      ⟨_, by rw [i2, Function.update_self]⟩⟩
    obtain ⟨c1, r1, e1⟩ := settings_exact (env := env) (draws := draws) hE hne override ss hss hr [] w c0 st0 (hf seed (by simp))
    obtain ⟨c2, r2, e2⟩ := ih hs2 (fun s hs => hrows s (List.mem_cons_of_mem _ hs)) _ c1 e1 fun seed' hs' s hs =>
      fresh_flatMap hE (fun e : seed' = seed => hs1 (e ▸ hs')) ss w (hf seed' (by simp [hs']) s hs)
    refine ⟨c2, ?_, by rw [List.flatMap_cons, ← List.append_assoc]; exact e2⟩
    unfold sweepSeeds
    rw [PyM.lift_bind_eq hsim, PyM.bind_ok i1', if_neg hd, PyM.bind_ok r1]
    exact r2

/-- The rows of a complete sweep of the growth model with unscented transforms, in the order in which they are stored. -/
private noncomputable def sweepRows (N numIter : ℕ) (seeds : List ℤ) (powers dampings : List ℝ) (x y : ℤ → ℕ → ℝ) : List Row :=
  seeds.flatMap fun seed => powers.flatMap fun p => dampings.flatMap fun d =>
    (List.range numIter).map (growthRow N seed p d (x seed) (y seed))

private theorem growth_table {env : Env} (jac : Jac) (hcalm : ∀ A : Matrix (Fin 1) (Fin 1) ℝ, env.illPos A = false) (draws : Draws) (cfg : Config)
    (hsys : UNGM.init = .ok cfg.system) (hdim : cfg.sysDim = 1) (hN : 2 ≤ cfg.timesteps) (hne : cfg.dynTable ≠ cfg.expTable)
    {seeds : List ℤ} {powers dampings : List ℝ} (hseeds : seeds.Nodup) (hpowers : powers.Nodup) (hdampings : dampings.Nodup)
    (hp : ∀ p ∈ powers, 0 < p) (x y : ℤ → ℕ → ℝ)
    (hsim : ∀ seed ∈ seeds, cfg.sim seed = .ok (scalarData cfg.timesteps (x seed) (y seed)))
    (override : Bool) {file : Tables} {drows : List Row} (h : Holds cfg file (drows, [])) :
    ∃ c, sweepMain env jac draws cfg seeds ["UT"] powers dampings override (Conn.connect file) = (.ok (), c) ∧
      c.saved cfg.expTable = some (expTable (sweepRows cfg.timesteps cfg.numIter seeds powers dampings x y)) := by
  classical
  set E : ℤ → Setting → List Row := fun seed s =>
    if s.transId = "UT" then (List.range cfg.numIter).map (growthRow cfg.timesteps seed s.power s.damping (x seed) (y seed)) else []
    with hEdef
  have hset : ∀ s ∈ settings ["UT"] powers dampings, s.transId = "UT" ∧ s.power ∈ powers ∧ s.damping ∈ dampings := fun s hs => by
    simp only [settings, List.flatMap_cons, List.flatMap_nil, List.append_nil, List.mem_flatMap, List.mem_map] at hs
    obtain ⟨p, hp, d, hd, rfl⟩ := hs
    exact ⟨rfl, hp, hd⟩
  have hE : Plan E := by
    refine ⟨fun seed s r hr => ?_, fun seed s => ?_⟩
    · simp only [hEdef] at hr
      split at hr
      · next ht =>
        obtain ⟨k, -, rfl⟩ := List.mem_map.1 hr
        exact ⟨k + 1, by rw [ht]; rfl⟩
      · simp at hr
    · simp only [hEdef]
      split
      · unfold Keyed
        rw [List.pairwise_map]
        refine List.nodup_range.imp fun {a b} hab e => hab ?_
        simp only [growthRow, expRow, List.take_succ_cons, List.take_zero, List.cons.injEq, Cell.num.injEq, true_and, and_true,
          add_left_inj, Nat.cast_inj] at e
        exact e
      · exact List.Pairwise.nil
  have hnd : (settings ["UT"] powers dampings).Nodup := by
    simp only [settings, List.flatMap_cons, List.flatMap_nil, List.append_nil]
    refine List.nodup_flatMap.2 ⟨fun p _ => hdampings.map fun a b e => by simpa using e, ?_⟩
    refine hpowers.imp fun {p q} hpq s h1 h2 => hpq ?_
    obtain ⟨_, -, rfl⟩ := List.mem_map.1 h1
    obtain ⟨_, -, e⟩ := List.mem_map.1 h2
    exact (congrArg Setting.power e).symm
  obtain ⟨c, c1, c2, -⟩ := create_run hne h
  have st : Exactly cfg c [] := ⟨by rw [c2.1, tabs_exp], by rw [c2.2, tabs_exp], ⟨_, by rw [c2.1, tabs_dyn hne]⟩⟩
  obtain ⟨c', r, st'⟩ := seeds_exact (env := env) (jac := jac) (draws := draws) hE hne override
    (settings ["UT"] powers dampings) hnd seeds hseeds (fun seed hseed => ⟨_, hsim seed hseed, by
      simp only [scalarData, ne_eq, List.map_eq_nil_iff, List.range_eq_nil]; omega, fun s hs draw => by
      obtain ⟨ht, hp', -⟩ := hset s hs
      have := powerRows_growth (env := env) jac hcalm draw cfg hsys hdim hN seed (hp _ hp') s.damping (x seed) (y seed)
      have hse : s = ⟨"UT", s.power, s.damping⟩ := by cases s; simp_all
      have hEs : E seed s = (List.range cfg.numIter).map (growthRow cfg.timesteps seed s.power s.damping (x seed) (y seed)) := if_pos ht
      rw [hEs, ← this, ← hse, scalarData, List.map_map, List.map_map]
      rfl⟩) [] c st (fun _ _ _ _ r hr => by simp at hr)
  refine ⟨c', (c1 _).trans r, ?_⟩
  rw [st'.saved, List.nil_append]
  unfold sweepRows
  congr 2
  refine congrArg (fun f => seeds.flatMap f) (funext fun seed => ?_)
  simp only [settings, List.flatMap_cons, List.flatMap_nil, List.append_nil, List.flatMap_assoc, List.flatMap_map]
  refine congrArg (fun f => powers.flatMap f) (funext fun p => congrArg (fun f => dampings.flatMap f) (funext fun d => ?_))
  exact if_pos rfl

private theorem flatMap_single {α β : Type} {l : List α} (hn : l.Nodup) {a : α} (ha : a ∈ l) {f : α → List β}
    (h : ∀ b ∈ l, b ≠ a → f b = []) : l.flatMap f = f a := by
  induction l with
  | nil => simp at ha
  | cons b l ih =>
    obtain ⟨h1, h2⟩ := List.nodup_cons.1 hn
    rw [List.flatMap_cons]
    rcases List.mem_cons.1 ha with rfl | ha
    · have : l.flatMap f = [] := List.flatMap_eq_nil_iff.2 fun b hb => h b (by simp [hb]) fun e => h1 (e ▸ hb)
      rw [this, List.append_nil]
    · rw [h b (by simp) (fun e => h1 (e ▸ ha)), List.nil_append]
      exact ih h2 ha fun b hb => h b (by simp [hb])

private theorem grid {α β γ : Type} (g : α → β → γ) (m : List β) : ∀ (l : List α) (i j : ℕ) (a : α) (b : β), l[i]? = some a → m[j]? = some b →
    (l.flatMap fun a => m.map (g a))[i * m.length + j]? = some (g a b)
  | [], i, j, a, b, h, _ => by simp at h
  | c :: l, 0, j, a, b, h, hb => by
    obtain ⟨hj, -⟩ := List.getElem?_eq_some_iff.1 hb
    obtain rfl : c = a := by simpa using h
    rw [List.flatMap_cons, List.getElem?_append_left (by simpa using hj)]
    simp [hb]
  | c :: l, i + 1, j, a, b, h, hb => by
    rw [List.flatMap_cons, List.getElem?_append_right (by rw [List.length_map]; nlinarith), List.length_map]
    rw [show (i + 1) * m.length + j - m.length = i * m.length + j by rw [Nat.succ_mul]; omega]
    exact grid g m l i j a b (by simpa using h) hb

open Classical in
/-- The rows of one seed and one iteration. -/
private theorem sweepRows_iter {N numIter : ℕ} {seeds : List ℤ} {powers dampings : List ℝ} (hseeds : seeds.Nodup) (x y : ℤ → ℕ → ℝ)
    {seed : ℤ} (hseed : seed ∈ seeds) {k : ℕ} (hk : k < numIter) {it : ℝ} (hit : it = k + 1) :
    ((sweepRows N numIter seeds powers dampings x y).filter fun r => decide (∃ p d a b, r = expRow "UT" seed p d it a b)) =
      powers.flatMap fun p => dampings.map fun d => growthRow N seed p d (x seed) (y seed) k := by
  subst hit
  unfold sweepRows
  rw [List.filter_flatMap, flatMap_single hseeds hseed]
  · rw [List.filter_flatMap]
    refine congrArg (fun f => powers.flatMap f) (funext fun p => ?_)
    rw [List.filter_flatMap, List.map_eq_flatMap]
    refine congrArg (fun f => dampings.flatMap f) (funext fun d => ?_)
    rw [List.map_eq_flatMap, List.filter_flatMap, flatMap_single List.nodup_range (List.mem_range.2 hk)]
    · rw [List.filter_cons_of_pos]
      · rfl
      · exact decide_eq_true ⟨_, _, _, _, rfl⟩
    · intro j _ hj
      rw [List.filter_cons_of_neg]
      · rfl
      · simp only [decide_eq_true_eq, not_exists]
        intro p d a b e
        obtain ⟨-, -, -, -, e5, -⟩ := expRow_inj e
        refine hj ?_
        have : (j : ℝ) = k := by linarith
        exact_mod_cast this
  · intro s _ hs
    rw [List.filter_eq_nil_iff]
    intro r hr
    simp only [List.mem_flatMap, List.mem_map] at hr
    obtain ⟨p, -, d, -, j, -, rfl⟩ := hr
    simp only [decide_eq_true_eq, not_exists]
    intro p d a b e
    obtain ⟨-, e2, -⟩ := expRow_inj e
    exact hs e2

private theorem grid_sorted (rows : List Row) {N : ℕ} {seed : ℤ} {powers dampings : List ℝ} (h1 : powers.Pairwise (· < ·))
    (h2 : dampings.Pairwise (· < ·)) (x y : ℕ → ℝ) (k : ℕ) :
    (powers.flatMap fun p => dampings.map fun d => growthRow N seed p d x y k).Pairwise fun a b =>
      keyLe ((expTable rows).key a) ((expTable rows).key b) := by
  rw [List.pairwise_flatMap]
  constructor
  · intro p _
    rw [List.pairwise_map]
    refine h2.imp fun {a b} hab => ?_
    rw [growthRow, growthRow, key_expRow, key_expRow]
    exact .inr ⟨rfl, .inr ⟨rfl, .inr ⟨rfl, .inr ⟨rfl, .inl hab⟩⟩⟩⟩
  · refine h1.imp fun {p q} hpq a ha b hb => ?_
    obtain ⟨d, -, rfl⟩ := List.mem_map.1 ha
    obtain ⟨d', -, rfl⟩ := List.mem_map.1 hb
    rw [growthRow, growthRow, key_expRow, key_expRow]
    exact .inr ⟨rfl, .inr ⟨rfl, .inr ⟨rfl, .inl hpq⟩⟩⟩

private theorem images_run {scan : Scan} {exp tr : String} {iters : ℕ} {c : Conn} {img : ℤ → Image} :
    ∀ l : List ℤ, (∀ seed ∈ l, makeImageData scan exp tr seed iters c = (.ok (img seed), c)) →
    images scan exp tr iters (l.map fun s : ℤ => (s : ℝ)) c = (.ok (l.map img), c)
  | [], _ => rfl
  | seed :: l, h => by
    rw [List.map_cons, images, PyM.bind_ok (h seed (by simp)), PyM.bind_ok (images_run l fun s hs => h s (by simp [hs]))]
    rfl

private theorem plotSweep_run {scan : Scan} {exp tr : String} {iters : ℕ} {c : Conn} {known used : List ℤ} {img : ℤ → Image}
    (hds : distinctSeeds scan exp c = (.ok (known.map fun s : ℤ => (s : ℝ)), c))
    (himg : ∀ seed ∈ used, makeImageData scan exp tr seed iters c = (.ok (img seed), c)) (h0 : used ≠ []) {seeds : Option (List ℤ)}
    (hu : seeds = none ∧ used = known ∨ seeds = some used) (metric : String) :
    plotSweep scan exp tr iters metric seeds c =
      (.ok (Matrix.of fun j i => (used.map fun s => if metric = "rmse" then (img s).rmse i j else (img s).nll i j).sum / used.length), c) := by
  obtain ⟨a, ha⟩ : ∃ a, (used.map img).getLast? = some a := by
    rw [← Option.isSome_iff_exists, List.getLast?_isSome]
    simpa using h0
  have hA : allSeedsImage scan exp tr iters seeds c = (.ok ⟨Matrix.of fun i j => ((used.map img).map fun b => b.rmse i j).sum / (used.map img).length,
      Matrix.of fun i j => ((used.map img).map fun b => b.nll i j).sum / (used.map img).length, a.power, a.damping⟩, c) := by
    unfold allSeedsImage
    rw [PyM.bind_ok hds]
    have hrun := images_run used himg
    rcases hu with ⟨rfl, rfl⟩ | rfl
    all_goals
      dsimp only
      rw [PyM.bind_ok hrun, ha]
      rfl
  unfold plotSweep
  rw [PyM.bind_ok hA]
  show (Except.ok _, _) = _
  congr 2
  ext j i
  split <;> simp [Function.comp_def]

private theorem sweepRows_plain {N numIter : ℕ} {seeds : List ℤ} {powers dampings : List ℝ} (x y : ℤ → ℕ → ℝ) :
    Plain (fun _ => True) (sweepRows N numIter seeds powers dampings x y) := by
  intro r hr
  simp only [sweepRows, List.mem_flatMap, List.mem_map] at hr
  obtain ⟨seed, -, p, -, d, -, k, -, rfl⟩ := hr
  exact ⟨⟨"UT", p, d⟩, seed, _, _, _, trivial, rfl⟩

/-- **C108.** The heat maps after a complete sweep of the growth model with unscented transforms, nineteen powers and nineteen dampings, into
a file without results: the pixel in line `j` (axis Damping) and column `i` (axis Power) is the average over the seeds of the scores for the
`i`-th power and the `j`-th damping after so many passes.  No order is asked for in the query; if sqlite visits rows along its index, powers
and dampings must have been listed in ascending order. -/
theorem C108_heatmap {env : Env} (jac : Jac) (hcalm : ∀ A : Matrix (Fin 1) (Fin 1) ℝ, env.illPos A = false) (draws : Draws) (cfg : Config)
    (hsys : UNGM.init = .ok cfg.system) (hdim : cfg.sysDim = 1) (hN : 2 ≤ cfg.timesteps) (hne : cfg.dynTable ≠ cfg.expTable)
    {seeds : List ℤ} (hseeds : seeds.Nodup) {powers dampings : Fin 19 → ℝ} (hpowers : powers.Injective) (hdampings : dampings.Injective)
    (hp : ∀ i, 0 < powers i) (x y : ℤ → ℕ → ℝ)
    (hsim : ∀ seed ∈ seeds, cfg.sim seed = .ok (scalarData cfg.timesteps (x seed) (y seed)))
    (override : Bool) {file : Tables} {drows : List Row} (h : Holds cfg file (drows, [])) {iters : ℕ} (h1 : 1 ≤ iters)
    (h2 : iters ≤ cfg.numIter) (scan : Scan) (hscan : scan = .rowid ∨ StrictMono powers ∧ StrictMono dampings) :
    let score := fun seed i j =>
      scores cfg.timesteps ((growthChain (powers i) (dampings j) (y seed)).estimates cfg.timesteps iters) (x seed)
    ∃ c, sweepMain env jac draws cfg seeds ["UT"] (List.ofFn powers) (List.ofFn dampings) override (Conn.connect file) = (.ok (), c) ∧
      (∀ shown : List ℤ, shown ≠ [] → shown ⊆ seeds →
        (plotSweep scan cfg.expTable "UT" iters "rmse" (some shown) (Conn.connect c.saved)).1 =
          .ok (Matrix.of fun j i => (shown.map fun seed => (score seed i j).1).sum / shown.length) ∧
        (plotSweep scan cfg.expTable "UT" iters "nll" (some shown) (Conn.connect c.saved)).1 =
          .ok (Matrix.of fun j i => (shown.map fun seed => (score seed i j).2).sum / shown.length)) ∧
      (seeds ≠ [] → (plotSweep scan cfg.expTable "UT" iters "rmse" none (Conn.connect c.saved)).1 =
          .ok (Matrix.of fun j i => (seeds.map fun seed => (score seed i j).1).sum / seeds.length) ∧
        (plotSweep scan cfg.expTable "UT" iters "nll" none (Conn.connect c.saved)).1 =
          .ok (Matrix.of fun j i => (seeds.map fun seed => (score seed i j).2).sum / seeds.length)) := by
  classical
  intro score
  obtain ⟨c, c1, c2⟩ := growth_table jac hcalm draws cfg hsys hdim hN hne hseeds (List.nodup_ofFn.2 hpowers) (List.nodup_ofFn.2 hdampings)
    (List.forall_mem_ofFn_iff.2 hp) x y hsim override h
  refine ⟨c, c1, ?_⟩
  set R := sweepRows cfg.timesteps cfg.numIter seeds (List.ofFn powers) (List.ofFn dampings) x y with hR
  have hplain : Plain (fun _ => True) R := sweepRows_plain x y
  have hit : ((iters : ℕ) : ℝ) = ((iters - 1 : ℕ) : ℝ) + 1 := by
    rw [Nat.cast_sub h1]
    simp
  have himg : ∀ seed ∈ seeds, makeImageData scan cfg.expTable "UT" seed iters (Conn.connect c.saved) =
      (.ok ⟨Matrix.of fun i j => (score seed i j).1, Matrix.of fun i j => (score seed i j).2, Matrix.of fun i _ => powers i,
        Matrix.of fun _ j => dampings j⟩, Conn.connect c.saved) := fun seed hseed => by
    set l := (List.ofFn powers).flatMap fun p => (List.ofFn dampings).map fun d =>
      growthRow cfg.timesteps seed p d (x seed) (y seed) (iters - 1) with hl
    have hf := sweepRows_iter (N := cfg.timesteps) (numIter := cfg.numIter) (powers := List.ofFn powers) (dampings := List.ofFn dampings)
      hseeds x y hseed (k := iters - 1) (by omega) hit
    have hv : scan.visit (expTable R) (R.filter fun r => decide (∃ p d a b, r = expRow "UT" seed p d iters a b)) = l := by
      rw [hf]
      rcases hscan with rfl | ⟨m1, m2⟩
      · rfl
      · exact visit_sorted scan _ (grid_sorted R (List.pairwise_ofFn.2 fun i j hij => m1 hij) (List.pairwise_ofFn.2 fun i j hij => m2 hij) _ _ _)
    obtain ⟨g, hg⟩ := plain_cells hplain (l := l) fun r hr => by
      rw [hl, ← hf] at hr
      exact (List.mem_filter.1 hr).1
    rw [makeImageData_run c2 hplain hg hv, if_pos (by
      simp only [hl, List.length_flatMap, List.length_map, List.length_ofFn, List.map_const', List.sum_replicate, smul_eq_mul])]
    have hat : ∀ i j : Fin 19, l[i.val * 19 + j.val]? =
        some (growthRow cfg.timesteps seed (powers i) (dampings j) (x seed) (y seed) (iters - 1)) := fun i j => by
      have := grid (fun p d => growthRow cfg.timesteps seed p d (x seed) (y seed) (iters - 1)) (List.ofFn dampings) (List.ofFn powers)
        i j (powers i) (dampings j) (by rw [List.getElem?_ofFn, dif_pos i.2]) (by rw [List.getElem?_ofFn, dif_pos j.2])
      rwa [List.length_ofFn] at this
    have hrow : ∀ i j : Fin 19, growthRow cfg.timesteps seed (powers i) (dampings j) (x seed) (y seed) (iters - 1) =
        expRow "UT" seed (powers i) (dampings j) iters (score seed i j).1 (score seed i j).2 := fun i j => by
      rw [growthRow, ← hit, Nat.sub_add_cancel h1]
    have hval : ∀ (q : Fin 4) (i j : Fin 19), (l.map (g q)).getD (i.val * 19 + j.val) 0 =
        g q (expRow "UT" seed (powers i) (dampings j) iters (score seed i j).1 (score seed i j).2) := fun q i j => by
      rw [List.getD_eq_getElem?_getD, List.getElem?_map, hat, hrow]
      rfl
    have hcell : ∀ i j : Fin 19, g 0 (expRow "UT" seed (powers i) (dampings j) iters (score seed i j).1 (score seed i j).2) = (score seed i j).1 ∧
        g 1 (expRow "UT" seed (powers i) (dampings j) iters (score seed i j).1 (score seed i j).2) = (score seed i j).2 ∧
        g 2 (expRow "UT" seed (powers i) (dampings j) iters (score seed i j).1 (score seed i j).2) = powers i ∧
        g 3 (expRow "UT" seed (powers i) (dampings j) iters (score seed i j).1 (score seed i j).2) = dampings j := fun i j => by
      have hm := List.mem_of_getElem? (hat i j)
      rw [hrow] at hm
      obtain ⟨e0, e1, e2, e3⟩ := hg _ hm
      rw [cell_rmse] at e0
      rw [cell_nll] at e1
      rw [cell_power] at e2
      rw [cell_damping] at e3
      exact ⟨(Cell.num.inj e0).symm, (Cell.num.inj e1).symm, (Cell.num.inj e2).symm, (Cell.num.inj e3).symm⟩
    congr 3 <;> ext i j <;> simp only [Matrix.of_apply, hval]
    · exact (hcell i j).1
    · exact (hcell i j).2.1
    · exact (hcell i j).2.2.1
    · exact (hcell i j).2.2.2
  have hall : R.filter (fun r => ([] : List (String × Cell)).all fun q =>
      decide (Table.cell (expTable R).cols r q.1 = q.2 ∧ q.2 ≠ .null)) = R := by simp
  have hsd : ∀ r ∈ R, ∃ s : ℤ, Table.cell (expTable R).cols r "Seed" = .num s := fun r hr => by
    obtain ⟨s, seed, it, a, b, -, rfl⟩ := hplain r hr
    exact ⟨seed, rfl⟩
  choose! sd hsd using hsd
  have hcol := column_run scan (c := Conn.connect c.saved) c2 (col := "Seed") (conds := []) (by simp [expTable]) (by simp)
    (l := scan.visit (expTable R) R) (by rw [hall]) (fun r => (sd r : ℝ)) fun r hr => hsd r ((visit_perm scan _ R).subset hr)
  set known : List ℤ := ((scan.visit (expTable R) R).map sd).dedup with hknown
  have hds : distinctSeeds scan cfg.expTable (Conn.connect c.saved) = (.ok (known.map fun s : ℤ => (s : ℝ)), Conn.connect c.saved) := by
    unfold distinctSeeds
    rw [PyM.bind_ok hcol]
    show (Except.ok _, _) = _
    congr 2
    rw [hknown, ← List.dedup_map_of_injective Int.cast_injective, List.map_map]
    rfl
  have hperm : known.Perm seeds := by
    rw [List.perm_ext_iff_of_nodup (List.nodup_dedup _) hseeds]
    intro s
    rw [List.mem_dedup, List.mem_map]
    constructor
    · rintro ⟨r, hr, rfl⟩
      have hr' := (visit_perm scan _ R).subset hr
      have hr0 := hr'
      simp only [hR, sweepRows, List.mem_flatMap, List.mem_map] at hr0
      obtain ⟨seed, hs, p, -, d, -, k, -, e⟩ := hr0
      have := hsd r hr'
      rw [← e, growthRow, cell_seed] at this
      rw [← e, growthRow]
      have := Int.cast_injective (Cell.num.inj this)
      rwa [← this]
    · intro hs
      have hm : growthRow cfg.timesteps s (powers 0) (dampings 0) (x s) (y s) 0 ∈ R := by
        simp only [hR, sweepRows, List.mem_flatMap, List.mem_map]
        exact ⟨s, hs, powers 0, by simp, dampings 0, by simp, 0, List.mem_range.2 (by omega), rfl⟩
      refine ⟨_, (visit_perm scan _ R).symm.subset hm, ?_⟩
      have := hsd _ hm
      rw [growthRow, cell_seed] at this
      exact (Int.cast_injective (Cell.num.inj this)).symm
  set img : ℤ → Image := fun seed => ⟨Matrix.of fun i j => (score seed i j).1, Matrix.of fun i j => (score seed i j).2,
    Matrix.of fun i _ => powers i, Matrix.of fun _ j => dampings j⟩ with himgdef
  have hplot : ∀ metric, (∀ shown : List ℤ, shown ≠ [] → shown ⊆ seeds →
      (plotSweep scan cfg.expTable "UT" iters metric (some shown) (Conn.connect c.saved)).1 =
        .ok (Matrix.of fun j i => (shown.map fun s => if metric = "rmse" then (score s i j).1 else (score s i j).2).sum / shown.length)) ∧
      (seeds ≠ [] → (plotSweep scan cfg.expTable "UT" iters metric none (Conn.connect c.saved)).1 =
        .ok (Matrix.of fun j i => (seeds.map fun s => if metric = "rmse" then (score s i j).1 else (score s i j).2).sum / seeds.length)) :=
    fun metric => by
      constructor
      · intro shown h0 hsub
        rw [plotSweep_run (img := img) hds (fun s hs => himg s (hsub hs)) h0 (.inr rfl)]
        rfl
      · intro h0
        have h0' : known ≠ [] := fun e => h0 (List.length_eq_zero_iff.1 (by rw [← hperm.length_eq, e]; rfl))
        rw [plotSweep_run (img := img) hds (fun s hs => himg s (hperm.subset hs)) h0' (.inl ⟨rfl, rfl⟩), hperm.length_eq]
        refine congrArg Except.ok (Matrix.ext fun j i => ?_)
        simp only [Matrix.of_apply, himgdef]
        rw [(hperm.map _).sum_eq]
  exact ⟨fun shown h0 hsub => ⟨by simpa using (hplot "rmse").1 shown h0 hsub, by simpa using (hplot "nll").1 shown h0 hsub⟩,
    fun h0 => ⟨by simpa using (hplot "rmse").2 h0, by simpa using (hplot "nll").2 h0⟩⟩

/-- **C108.** The curves over the iterations after a sweep of the growth model with unscented transforms into a file of earlier sweeps that
has nothing for the setting and the seeds: at iteration `t` they show average and standard deviation over the seeds of the scores after `t`
passes. -/
theorem C108_growth_curve {env : Env} (jac : Jac) (hcalm : ∀ A : Matrix (Fin 1) (Fin 1) ℝ, env.illPos A = false) (draws : Draws) (cfg : Config)
    (hsys : UNGM.init = .ok cfg.system) (hdim : cfg.sysDim = 1) (hN : 2 ≤ cfg.timesteps) (hT : cfg.numIter ≠ 1)
    (hne : cfg.dynTable ≠ cfg.expTable) {seeds : List ℤ} {powers dampings : List ℝ} (hp : ∀ p ∈ powers, 0 < p) (x y : ℤ → ℕ → ℝ)
    (hsim : ∀ seed ∈ seeds, cfg.sim seed = .ok (scalarData cfg.timesteps (x seed) (y seed)))
    (override : Bool) {file : Tables} (h : AfterRuns cfg.dynTable cfg.expTable (fun _ => True) file)
    {shown : List ℤ} (h0 : shown ≠ []) (hsub : shown ⊆ seeds) {p d : ℝ} (hpm : p ∈ powers) (hdm : d ∈ dampings)
    (hfresh : ∀ erows, file cfg.expTable = some (expTable erows) → ∀ seed ∈ shown, Fresh erows seed ⟨"UT", p, d⟩)
    (scan : Scan) (metric : String) (f : ℝ × ℝ → ℝ) (hm : metric = "RMSE" ∧ f = Prod.fst ∨ metric = "NLL" ∧ f = Prod.snd) :
    let z : Matrix (Fin shown.length) (Fin (min cfg.numIter 50)) ℝ := Matrix.of fun i t =>
      f (scores cfg.timesteps ((growthChain p d (y (shown.get i))).estimates cfg.timesteps (t + 1)) (x (shown.get i)))
    let time := (List.range (min cfg.numIter 50)).map (· + 1)
    ∃ c, sweepMain env jac draws cfg seeds ["UT"] powers dampings override (Conn.connect file) = (.ok (), c) ∧
      (plotExperiment scan cfg.expTable metric "UT" "Power" p "Damping" d shown (Conn.connect c.saved)).1 =
        .ok (.line time (List.ofFn fun t => [avg z t]) :: if 1 < shown.length then
          [.fill time (List.ofFn fun t => some (avg z t - spread z t)) (List.ofFn fun t => some (avg z t + spread z t))] else []) := by
  intro z time
  obtain ⟨drows, erows, hd, he, -⟩ := after_runs hne h
  obtain ⟨c, rows, c1, c2, -, c4, c5, -⟩ := C71_growth_sweep (env := env) jac hcalm draws cfg hsys hdim hN hne seeds powers dampings hp x y hsim
    override file drows erows ⟨hd, he⟩
  have hfr : ∀ seed ∈ shown, Fresh erows seed ⟨"UT", p, d⟩ := fun seed hs => by
    rcases he with he | ⟨-, he⟩
    · exact hfresh erows he seed hs
    · subst he
      intro r hr
      simp at hr
  have hafter : AfterRuns cfg.dynTable cfg.expTable (fun _ => True) c.saved :=
    .run h env jac draws cfg rfl rfl seeds ["UT"] powers dampings override (fun _ _ => trivial) (.inr (by rw [c1]))
  refine ⟨c, c1, C108_curve hne hafter c2 "UT" p d h0 hT
    (fun seed k => scores cfg.timesteps ((growthChain p d (y seed)).estimates cfg.timesteps (k + 1)) (x seed))
    (fun seed hs it a b => ⟨fun hr => ?_, ?_⟩) scan metric f hm⟩
  · rcases c5 _ hr with hr | ⟨seed', -, p', -, d', -, k, hk, e⟩
    · exact absurd rfl (hfr seed hs _ hr it)
    · obtain ⟨-, rfl, rfl, rfl, e5, e6, e7⟩ := expRow_inj e
      exact ⟨k, hk, e5, Prod.ext e6 e7⟩
  · rintro ⟨k, hk, rfl, e⟩
    have := c4 seed (hsub hs) p hpm d hdm (hfr seed hs) k hk
    rw [growthRow, ← e] at this
    exact this

/-! ## Examples -/

/-- Two seeds, fifty iterations, two settings, into a new file. -/
example (jac : Jac) (draws : Draws) (x y : ℤ → ℕ → ℝ) (scan : Scan) : ∃ c, sweepMain calmEnv jac draws
    { system := ungm, timesteps := 100, sysDim := 1, numIter := 50, dynTable := "UNGM_SIM", expTable := "UNGM_EXP"
      sim := fun seed => .ok (scalarData 100 (x seed) (y seed)) }
    [101, 201] ["UT"] [0.1, 1] [1, 0.8] false (Conn.connect fun _ => none) = (.ok (), c) ∧
    ∃ draws, (plotExperiment scan "UNGM_EXP" "RMSE" "UT" "Power" 0.1 "Damping" 0.8 [101, 201] (Conn.connect c.saved)).1 = .ok draws := by
  obtain ⟨c, h1, h2⟩ := C108_growth_curve (env := calmEnv) jac (fun _ => rfl) draws
    { system := ungm, timesteps := 100, sysDim := 1, numIter := 50, dynTable := "UNGM_SIM", expTable := "UNGM_EXP"
      sim := fun seed => .ok (scalarData 100 (x seed) (y seed)) } ungm_init rfl (by norm_num) (by norm_num) (by simp)
    (seeds := [101, 201]) (powers := [0.1, 1]) (dampings := [1, 0.8]) (by simp; norm_num) x y (fun _ _ => rfl) false (file := fun _ => none)
    (.start _ (.inl rfl) (.inl rfl)) (shown := [101, 201]) (by simp) (by simp) (p := 0.1) (d := 0.8) (by simp) (by simp) (by simp) scan
    "RMSE" Prod.fst (.inl ⟨rfl, rfl⟩)
  exact ⟨c, h1, _, h2⟩

/-- Nineteen powers and dampings `0.1, 0.15, …, 1`: a heat map of the scores after fifty passes. -/
example (jac : Jac) (draws : Draws) (x y : ℤ → ℕ → ℝ) (scan : Scan) : ∃ c, sweepMain calmEnv jac draws
    { system := ungm, timesteps := 100, sysDim := 1, numIter := 50, dynTable := "UNGM_SIM", expTable := "UNGM_EXP"
      sim := fun seed => .ok (scalarData 100 (x seed) (y seed)) }
    [101, 201] ["UT"] (List.ofFn fun i : Fin 19 => (0.1 + 0.05 * i.val : ℝ)) (List.ofFn fun i : Fin 19 => (0.1 + 0.05 * i.val : ℝ)) false
    (Conn.connect fun _ => none) = (.ok (), c) ∧
    ∃ M, (plotSweep scan "UNGM_EXP" "UT" 50 "rmse" none (Conn.connect c.saved)).1 = .ok M := by
  have hmono : StrictMono fun i : Fin 19 => (0.1 + 0.05 * i.val : ℝ) := fun i j hij => by
    have : (i.val : ℝ) < j.val := by exact_mod_cast hij
    show (0.1 + 0.05 * i.val : ℝ) < 0.1 + 0.05 * j.val
    linarith
  obtain ⟨c, h1, -, h2⟩ := C108_heatmap (env := calmEnv) jac (fun _ => rfl) draws
    { system := ungm, timesteps := 100, sysDim := 1, numIter := 50, dynTable := "UNGM_SIM", expTable := "UNGM_EXP"
      sim := fun seed => .ok (scalarData 100 (x seed) (y seed)) } ungm_init rfl (by norm_num) (by simp)
    (seeds := [101, 201]) (by simp) hmono.injective hmono.injective (fun i => by positivity) x y (fun _ _ => rfl) false
    (file := fun _ => none) (drows := []) ⟨.inr ⟨rfl, rfl⟩, .inr ⟨rfl, rfl⟩⟩ (iters := 50) (by norm_num) (by norm_num) scan
    (.inr ⟨hmono, hmono⟩)
  exact ⟨c, h1, _, (h2 (by simp)).1⟩

/-- The sweep as it stands (ten powers, two dampings): no heat map. -/
example (jac : Jac) (draws : Draws) (x y : ℤ → ℕ → ℝ) (scan : Scan) (seed : ℤ) (rows : List Row) (powers : List ℝ) (hp : powers.length = 10)
    (hrows : (sweepMain calmEnv jac draws
    { system := ungm, timesteps := 100, sysDim := 1, numIter := 50, dynTable := "UNGM_SIM", expTable := "UNGM_EXP"
      sim := fun seed => .ok (scalarData 100 (x seed) (y seed)) }
    [101, 201] ["UT"] powers [1, 0.8] false (Conn.connect fun _ => none)).2.saved "UNGM_EXP" = some (expTable rows)) :
    (plotSweep scan "UNGM_EXP" "UT" 50 "rmse" (some [seed]) (Conn.connect (sweepMain calmEnv jac draws
    { system := ungm, timesteps := 100, sysDim := 1, numIter := 50, dynTable := "UNGM_SIM", expTable := "UNGM_EXP"
      sim := fun seed => .ok (scalarData 100 (x seed) (y seed)) }
    [101, 201] ["UT"] powers [1, 0.8] false (Conn.connect fun _ => none)).2.saved)).1 = .error .value :=
  (C108_heatmap_small (dyn := "UNGM_SIM") (by simp) (P := powers) (D := [1, 0.8]) (by simp [hp])
    (.run (.start _ (.inl rfl) (.inl rfl)) _ _ _ _ rfl rfl _ _ _ _ _ (fun s hs => by
      simp only [settings, List.flatMap_cons, List.flatMap_nil, List.append_nil, List.mem_flatMap, List.mem_map] at hs
      obtain ⟨p, hp, d, hd, rfl⟩ := hs
      exact ⟨hp, hd⟩) (.inr rfl)) hrows scan "UT" "rmse" 50
    seed []).1

end Notebook

end Verif
