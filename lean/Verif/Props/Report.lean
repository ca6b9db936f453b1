import Verif.Spec.Report
import Verif.Props.Display

/-!
# Which results `DisplayResults.py` reports on, for any content of the tables (C88)
-/

namespace Verif

namespace Display

open Classical

/-! ## Queries on tables of records -/

theorem select_records {R : Type} {c : Conn} {table : String} {cols uniq : List String} {l : List R} {row : R → Row}
    (hc : c.work table = some ⟨cols, uniq, l.map row⟩) {col : String} {conds : List (String × Cell)} (h1 : col ∈ cols)
    (h2 : ∀ q ∈ conds, q.1 ∈ cols) {P : R → Prop} [DecidablePred P] {f : R → Cell}
    (hP : ∀ r, (∀ q ∈ conds, Table.cell cols (row r) q.1 = q.2 ∧ q.2 ≠ .null) ↔ P r) (hf : ∀ r, Table.cell cols (row r) col = f r) :
    select table col conds c = (.ok ((l.filter fun r => decide (P r)).map f), c) := by
  rw [select_run hc h1 h2]
  dsimp only
  rw [List.filter_map, List.map_map]
  have e : ((fun r => conds.all fun q => decide (Table.cell cols r q.1 = q.2 ∧ q.2 ≠ .null)) ∘ row) = fun r => decide (P r) := by
    funext r
    rw [Function.comp, Bool.eq_iff_iff, List.all_eq_true, decide_eq_true_iff, ← hP r]
    simp only [decide_eq_true_iff]
  rw [e]
  congr 2
  exact List.map_congr_left fun r _ => hf r

theorem numbers_nums : ∀ l : List ℝ, numbers (l.map Cell.num) = .ok l
  | [] => rfl
  | a :: l => by
    rw [List.map_cons, numbers, numbers_nums l]
    rfl

/-- Both queries of a line. -/
theorem select_scores {c : Conn} {table : String} {cols uniq : List String} {l : List Result} {row : Result → Row}
    (hc : c.work table = some ⟨cols, uniq, l.map row⟩) {conds : List (String × Cell)} (h1 : "RMSE" ∈ cols) (h1' : "NLL" ∈ cols)
    (h2 : ∀ q ∈ conds, q.1 ∈ cols) {P : Result → Prop} [DecidablePred P]
    (hP : ∀ r, (∀ q ∈ conds, Table.cell cols (row r) q.1 = q.2 ∧ q.2 ≠ .null) ↔ P r)
    (hr : ∀ r, Table.cell cols (row r) "RMSE" = .num r.rmse) (hl : ∀ r, Table.cell cols (row r) "NLL" = .num r.nll) :
    select table "RMSE" conds c = (.ok (((l.filter fun r => decide (P r)).map Result.rmse).map Cell.num), c) ∧
      select table "NLL" conds c = (.ok (((l.filter fun r => decide (P r)).map Result.nll).map Cell.num), c) := by
  rw [List.map_map, List.map_map]
  exact ⟨select_records hc h1 h2 hP hr, select_records hc h1' h2 hP hl⟩

theorem line_of_selects {c : Conn} {table : String} {conds : List (String × Cell)} {l : List Result}
    (h : select table "RMSE" conds c = (.ok ((l.map Result.rmse).map Cell.num), c) ∧
      select table "NLL" conds c = (.ok ((l.map Result.nll).map Cell.num), c)) :
    ∃ o, line table conds c = (.ok o, c) ∧ ReportsLine o (l.map Result.score) := by
  unfold line
  rw [PyM.bind_ok h.1, PyM.bind_ok h.2, PyM.lift_bind_eq (numbers_nums _), PyM.lift_bind_eq (numbers_nums _)]
  refine ⟨_, rfl, ?_, ?_⟩
  · rw [List.map_map]; exact reports_stats _
  · rw [List.map_map]; exact reports_stats _

/-! ## Expectation propagation -/

private theorem num_int {a b : ℤ} : Cell.num (a : ℝ) = .num b ↔ a = b := by rw [Cell.num.injEq, Int.cast_inj]
private theorem num_nat {a b : ℕ} : Cell.num (a : ℝ) = .num b ↔ a = b := by rw [Cell.num.injEq, Nat.cast_inj]

private theorem turn_selects {c : Conn} {l : List Result} (hc : c.work "BOTT_EXP" = some (Result.turnTable l)) (trans quant : String)
    (p d : ℝ) (i : ℕ) :
    ∃ o, line "BOTT_EXP" [("Power", .num p), ("Damping", .num d), ("Transform", .text trans), ("Quantity", .text quant), ("Iter", .num i)] c =
        (.ok o, c) ∧
      ReportsLine o ((l.filter fun r => r.power = p ∧ r.damping = d ∧ r.transform = trans ∧ r.quantity = quant ∧ r.iter = i).map
        Result.score) := by
  refine line_of_selects (select_scores hc (by decide) (by decide) (by simp) (fun r => ?_) (fun r => rfl) fun r => rfl)
  simp only [List.forall_mem_cons]
  constructor
  · rintro ⟨⟨a, -⟩, ⟨b, -⟩, ⟨e, -⟩, ⟨f, -⟩, ⟨g, -⟩, -⟩
    exact ⟨Cell.num.inj a, Cell.num.inj b, Cell.text.inj e, Cell.text.inj f, num_nat.1 g⟩
  · rintro ⟨rfl, rfl, rfl, rfl, rfl⟩
    exact ⟨⟨rfl, nofun⟩, ⟨rfl, nofun⟩, ⟨rfl, nofun⟩, ⟨rfl, nofun⟩, ⟨rfl, nofun⟩, nofun⟩

/-- **C88.** Whatever the table of the turning target holds: the line "Kalman Smoother" reports on the results of the first iteration with
power and damping one, those of the powers on the results of iteration fifty with the chosen damping, always of the chosen transform and
quantity only. -/
theorem C88_turn_table {c : Conn} {l : List Result} (hc : c.work "BOTT_EXP" = some (Result.turnTable l)) (trans quant : String) (damping : ℝ)
    (powers : List ℝ) :
    ∃ base os, turn trans quant damping powers c = (.ok (base, os), c) ∧
      ReportsLine base ((l.filter fun r => r.power = 1 ∧ r.damping = 1 ∧ r.transform = trans ∧ r.quantity = quant ∧ r.iter = 1).map
        Result.score) ∧
      List.Forall₂ (fun p o => ReportsLine o ((l.filter fun r =>
        r.power = p ∧ r.damping = damping ∧ r.transform = trans ∧ r.quantity = quant ∧ r.iter = 50).map Result.score)) powers os := by
  obtain ⟨base, h1, h2⟩ := turn_selects hc trans quant 1 1 1
  obtain ⟨os, h3, h4⟩ := lines_run (fun p => turn_selects hc trans quant p damping 50) powers
  refine ⟨base, os, ?_, h2, h4⟩
  rw [Nat.cast_one] at h1
  rw [Nat.cast_ofNat] at h3
  unfold turn
  rw [PyM.bind_ok h1, PyM.bind_ok h3]
  rfl

private theorem lorenz_selects {c : Conn} {l : List Result} (hc : c.work "L96_EXP" = some (Result.lorenzTable l)) (trans : String)
    (p d : ℝ) (dim i : ℕ) :
    let conds : List (String × Cell) := [("Power", .num p), ("Damping", .num d), ("Transform", .text trans), ("dim", .num dim), ("Iter", .num i)]
    let found := l.filter fun r => r.power = p ∧ r.damping = d ∧ r.transform = trans ∧ r.dim = dim ∧ r.iter = i
    select "L96_EXP" "RMSE" conds c = (.ok ((found.map Result.rmse).map Cell.num), c) ∧
      select "L96_EXP" "NLL" conds c = (.ok ((found.map Result.nll).map Cell.num), c) := by
  intro conds found
  refine select_scores hc (by decide) (by decide) (by simp [conds]) (fun r => ?_) (fun r => rfl) fun r => rfl
  simp only [conds, List.forall_mem_cons]
  constructor
  · rintro ⟨⟨a, -⟩, ⟨b, -⟩, ⟨e, -⟩, ⟨f, -⟩, ⟨g, -⟩, -⟩
    exact ⟨Cell.num.inj a, Cell.num.inj b, Cell.text.inj e, num_nat.1 f, num_nat.1 g⟩
  · rintro ⟨rfl, rfl, rfl, rfl, rfl⟩
    exact ⟨⟨rfl, nofun⟩, ⟨rfl, nofun⟩, ⟨rfl, nofun⟩, ⟨rfl, nofun⟩, ⟨rfl, nofun⟩, nofun⟩

/-- **C88.** Whatever the table of Lorenz 96 holds: the first line reports on the results numbered zero with power and damping one, the second
on the results numbered nine with the chosen power and damping one, always of the chosen transform and dimension only. -/
theorem C88_lorenz_table {c : Conn} {l : List Result} (hc : c.work "L96_EXP" = some (Result.lorenzTable l)) (trans : String) (power : ℝ)
    (dim : ℕ) :
    ∃ base last, lorenz trans power dim c = (.ok (base, last), c) ∧
      ReportsLine base ((l.filter fun r => r.power = 1 ∧ r.damping = 1 ∧ r.transform = trans ∧ r.dim = dim ∧ r.iter = 0).map Result.score) ∧
      ReportsLine last ((l.filter fun r => r.power = power ∧ r.damping = 1 ∧ r.transform = trans ∧ r.dim = dim ∧ r.iter = 9).map
        Result.score) := by
  obtain ⟨a1, a2⟩ := lorenz_selects hc trans 1 1 dim 0
  obtain ⟨b1, b2⟩ := lorenz_selects hc trans power 1 dim 9
  rw [Nat.cast_zero] at a1 a2
  rw [Nat.cast_ofNat] at b1 b2
  unfold lorenz
  dsimp only
  rw [PyM.bind_ok a1, PyM.bind_ok a2, PyM.bind_ok b1, PyM.bind_ok b2]
  simp only [PyM.lift_bind_eq (numbers_nums _)]
  refine ⟨_, _, rfl, ⟨?_, ?_⟩, ⟨?_, ?_⟩⟩ <;> · rw [List.map_map]; exact reports_stats _

/-! ## Iterated smoother -/

theorem perSeed_records {c : Conn} {table : String} {conds : ℤ → List (String × Cell)} {found : ℤ → List Result}
    (h : ∀ s, select table "RMSE" (conds s) c = (.ok (((found s).map Result.rmse).map Cell.num), c) ∧
      select table "NLL" (conds s) c = (.ok (((found s).map Result.nll).map Cell.num), c)) (seeds : List ℤ) :
    perSeed table conds seeds c = (.ok (seeds.map fun s => (found s).map Result.rmse, seeds.map fun s => (found s).map Result.nll), c) := by
  induction seeds with
  | nil => rfl
  | cons s seeds ih =>
    unfold perSeed
    rw [PyM.bind_ok (h s).1, PyM.bind_ok (h s).2, PyM.bind_ok ih, PyM.lift_bind_eq (numbers_nums _), PyM.lift_bind_eq (numbers_nums _)]
    rfl

private theorem flatten_scores (f : Result → ℝ) (found : ℤ → List Result) (seeds : List ℤ) :
    (seeds.map fun s => (found s).map f).flatten = (seeds.flatMap found).map f := by
  rw [List.map_flatMap, List.flatMap_def]

theorem smoother_records {c : Conn} {table : String} {conds : ℤ → List (String × Cell)} {found : ℤ → List Result}
    (h : ∀ s, select table "RMSE" (conds s) c = (.ok (((found s).map Result.rmse).map Cell.num), c) ∧
      select table "NLL" (conds s) c = (.ok (((found s).map Result.nll).map Cell.num), c)) (seeds : List ℤ) :
    ((∀ s ∈ seeds, ∀ s' ∈ seeds, (found s).length = (found s').length) →
      ∃ o, smoother table conds seeds c = (.ok o, c) ∧ ReportsLine o ((seeds.flatMap found).map Result.score)) ∧
    ((∃ s ∈ seeds, ∃ s' ∈ seeds, (found s).length ≠ (found s').length) → smoother table conds seeds c = (.error .value, c)) := by
  unfold smoother
  rw [PyM.bind_ok (perSeed_records h seeds)]
  have key : ∀ f : Result → ℝ, (∀ a ∈ seeds.map fun s => (found s).map f, ∀ b ∈ seeds.map fun s => (found s).map f, a.length = b.length) ↔
      ∀ s ∈ seeds, ∀ s' ∈ seeds, (found s).length = (found s').length := fun f => by simp
  refine ⟨fun hall => ⟨(stats ((seeds.flatMap found).map Result.rmse), stats ((seeds.flatMap found).map Result.nll)), ?_, ?_⟩, fun ⟨s, hs, s', hs', hne⟩ => ?_⟩
  · dsimp only
    rw [stackStats, if_pos ((key _).2 hall), stackStats, if_pos ((key _).2 hall), flatten_scores, flatten_scores]
    rfl
  · refine ⟨?_, ?_⟩ <;> · rw [List.map_map]; exact reports_stats _
  · dsimp only
    rw [stackStats, if_neg fun hall => hne ((key _).1 hall s hs s' hs')]
    rfl

/-- **C88.** Whatever the table of the iterated smoother on the turning target holds, the section reports on the results of the chosen quantity
and iteration, for the chosen seeds; it is an error if the numbers of results of the seeds differ. -/
theorem C88_iterated_turn_table {c : Conn} {l : List Result} (hc : c.work "BOTT_EXP" = some (Result.iteratedTurnTable l)) (quantity : String)
    (iter : ℕ) (seeds : List ℤ) :
    let found (s : ℤ) := l.filter fun r => r.quantity = quantity ∧ r.seed = s ∧ r.iter = iter
    ((∀ s ∈ seeds, ∀ s' ∈ seeds, (found s).length = (found s').length) →
      ∃ o, smoother "BOTT_EXP" (turnConds quantity iter) seeds c = (.ok o, c) ∧ ReportsLine o ((seeds.flatMap found).map Result.score)) ∧
    ((∃ s ∈ seeds, ∃ s' ∈ seeds, (found s).length ≠ (found s').length) →
      smoother "BOTT_EXP" (turnConds quantity iter) seeds c = (.error .value, c)) := by
  intro found
  refine smoother_records (found := found) (fun s => select_scores hc (by decide) (by decide) (fun q hq => ?_) (fun r => ?_) (fun r => rfl) fun r => rfl) seeds
  · simp only [turnConds, List.mem_cons, List.not_mem_nil, or_false] at hq
    rcases hq with rfl | rfl | rfl <;> simp
  · simp only [turnConds, List.forall_mem_cons]
    constructor
    · rintro ⟨⟨a, -⟩, ⟨b, -⟩, ⟨e, -⟩, -⟩
      exact ⟨Cell.text.inj a, num_int.1 b, num_nat.1 e⟩
    · rintro ⟨rfl, rfl, rfl⟩
      exact ⟨⟨rfl, nofun⟩, ⟨rfl, nofun⟩, ⟨rfl, nofun⟩, nofun⟩

/-- **C88.** The same for Lorenz 96 with the chosen dimension. -/
theorem C88_iterated_lorenz_table {c : Conn} {l : List Result} (hc : c.work "L96_EXP" = some (Result.iteratedLorenzTable l)) (dim : ℕ)
    (iter : ℕ) (seeds : List ℤ) :
    let found (s : ℤ) := l.filter fun r => r.dim = dim ∧ r.seed = s ∧ r.iter = iter
    ((∀ s ∈ seeds, ∀ s' ∈ seeds, (found s).length = (found s').length) →
      ∃ o, smoother "L96_EXP" (lorenzConds dim iter) seeds c = (.ok o, c) ∧ ReportsLine o ((seeds.flatMap found).map Result.score)) ∧
    ((∃ s ∈ seeds, ∃ s' ∈ seeds, (found s).length ≠ (found s').length) →
      smoother "L96_EXP" (lorenzConds dim iter) seeds c = (.error .value, c)) := by
  intro found
  refine smoother_records (found := found) (fun s => select_scores hc (by decide) (by decide) (fun q hq => ?_) (fun r => ?_) (fun r => rfl) fun r => rfl) seeds
  · simp only [lorenzConds, List.mem_cons, List.not_mem_nil, or_false] at hq
    rcases hq with rfl | rfl | rfl <;> simp
  · simp only [lorenzConds, List.forall_mem_cons]
    constructor
    · rintro ⟨⟨a, -⟩, ⟨b, -⟩, ⟨e, -⟩, -⟩
      exact ⟨num_nat.1 a, num_int.1 b, num_nat.1 e⟩
    · rintro ⟨rfl, rfl, rfl⟩
      exact ⟨⟨rfl, nofun⟩, ⟨rfl, nofun⟩, ⟨rfl, nofun⟩, nofun⟩

/-! ## Cells without a number -/

private theorem numbers_bad : ∀ {l : List Cell}, (∀ a ∈ l, (∃ x, a = .num x) ∨ a = .null ∨ ∃ s, a = .text s) →
    (∃ a ∈ l, ∀ x, a ≠ .num x) → numbers l = .error .type
  | [], _, ⟨_, h, _⟩ => by simp at h
  | a :: l, h, ⟨b, hb, hb'⟩ => by
    rcases h a (by simp) with ⟨x, rfl⟩ | rfl | ⟨s, rfl⟩
    · rw [numbers, numbers_bad (fun c hc => h c (by simp [hc])) ⟨b, ?_, hb'⟩]
      · rfl
      · rcases List.mem_cons.1 hb with rfl | hb
        · exact absurd rfl (hb' x)
        · exact hb
    · rfl
    · rfl

private theorem numbers_cases {l : List Cell} (h : ∀ a ∈ l, (∃ x, a = .num x) ∨ a = .null ∨ ∃ s, a = .text s) :
    numbers l = .error .type ∨ ∃ v, numbers l = .ok v := by
  by_cases hb : ∃ a ∈ l, ∀ x, a ≠ .num x
  · exact .inl (numbers_bad h hb)
  · push Not at hb
    refine .inr ⟨l.map toNum, ?_⟩
    induction l with
    | nil => rfl
    | cons a l ih =>
      obtain ⟨x, rfl⟩ := hb a (by simp)
      rw [numbers, ih (fun a ha => h a (by simp [ha])) fun a ha => hb a (by simp [ha])]
      rfl

/-- **C88.** A result without a number in one of the two columns is not passed over: the line is an error. -/
theorem C88_not_a_number {c : Conn} {table : String} {t : Table} (hc : c.work table = some t) {conds : List (String × Cell)}
    (h1 : "RMSE" ∈ t.cols) (h1' : "NLL" ∈ t.cols) (h2 : ∀ q ∈ conds, q.1 ∈ t.cols)
    (hcell : ∀ r ∈ t.rows, ∀ col ∈ ["RMSE", "NLL"],
      (∃ x, Table.cell t.cols r col = .num x) ∨ Table.cell t.cols r col = .null ∨ ∃ s, Table.cell t.cols r col = .text s)
    {r : Row} (hr : r ∈ t.rows) (hmatch : ∀ q ∈ conds, Table.cell t.cols r q.1 = q.2 ∧ q.2 ≠ .null) {col : String}
    (hcol : col ∈ ["RMSE", "NLL"]) (hbad : ∀ x, Table.cell t.cols r col ≠ .num x) : line table conds c = (.error .type, c) := by
  unfold line
  rw [PyM.bind_ok (select_run hc h1 h2), PyM.bind_ok (select_run hc h1' h2)]
  set found := t.rows.filter fun r => conds.all fun q => decide (Table.cell t.cols r q.1 = q.2 ∧ q.2 ≠ .null) with hfound
  have hin : r ∈ found := by
    rw [hfound, List.mem_filter]
    exact ⟨hr, by rw [List.all_eq_true]; exact fun q hq => decide_eq_true (hmatch q hq)⟩
  have hc' : ∀ col ∈ ["RMSE", "NLL"], ∀ a ∈ found.map fun r => Table.cell t.cols r col, (∃ x, a = .num x) ∨ a = .null ∨ ∃ s, a = .text s := by
    intro col hcol a ha
    obtain ⟨q, hq, rfl⟩ := List.mem_map.1 ha
    exact hcell q (List.mem_filter.1 hq).1 col hcol
  rcases numbers_cases (hc' "RMSE" (by simp)) with e | ⟨v, e⟩
  · rw [e]; rfl
  · rw [e]
    have hl : col = "NLL" := by
      simp only [List.mem_cons, List.not_mem_nil, or_false] at hcol
      rcases hcol with rfl | rfl
      · rw [numbers_bad (hc' "RMSE" (by simp)) ⟨_, List.mem_map_of_mem hin, hbad⟩] at e
        simp at e
      · rfl
    subst hl
    rw [PyM.lift_ok_bind, numbers_bad (hc' "NLL" (by simp)) ⟨_, List.mem_map_of_mem hin, hbad⟩]
    rfl

/-! ## Cases -/

/-- Two quantities, two seeds, a power and another iteration: the section for positions reports on the positions. -/
example (file : Tables) (hf : file "BOTT_EXP" = some (Result.turnTable
      [⟨"MCT", "position", 101, 5, 1, 1, 1, 3, 10⟩, ⟨"MCT", "angle", 101, 5, 1, 1, 1, 100, 200⟩, ⟨"MCT", "position", 201, 5, 1, 1, 1, 5, 10⟩,
        ⟨"MCT", "position", 101, 5, 50, 0.8, 1, 7, 8⟩, ⟨"UT", "position", 101, 5, 1, 1, 1, 300, 200⟩])) :
    ∃ base o, turn "MCT" "position" 1 [0.8] (Conn.connect file) = (.ok (base, [o]), Conn.connect file) ∧
      ReportsLine base [(3, 10), (5, 10)] ∧ ReportsLine o [(7, 8)] := by
  obtain ⟨base, os, h1, h2, h3⟩ := C88_turn_table (c := Conn.connect file) hf "MCT" "position" 1 [0.8]
  cases h3 with
  | @cons _ o _ _ h4 h5 =>
    cases h5
    refine ⟨base, o, h1, ?_, ?_⟩
    · simpa [Result.score] using h2
    · have e : ¬ (1 : ℝ) = 0.8 := by norm_num
      simpa [Result.score, e] using h4

/-- Two dimensions. -/
example (file : Tables) (hf : file "L96_EXP" = some (Result.lorenzTable
      [⟨"MCT", "", 101, 5, 0, 1, 1, 3, 10⟩, ⟨"MCT", "", 101, 10, 0, 1, 1, 100, 200⟩, ⟨"MCT", "", 101, 5, 9, 0.8, 1, 5, 6⟩,
        ⟨"MCT", "", 101, 5, 8, 0.8, 1, 7, 8⟩])) :
    ∃ base o, lorenz "MCT" 0.8 5 (Conn.connect file) = (.ok (base, o), Conn.connect file) ∧
      ReportsLine base [(3, 10)] ∧ ReportsLine o [(5, 6)] := by
  obtain ⟨base, o, h1, h2, h3⟩ := C88_lorenz_table (c := Conn.connect file) hf "MCT" 0.8 5
  refine ⟨base, o, h1, ?_, ?_⟩
  · have e : ¬ (0.8 : ℝ) = 1 := by norm_num
    simpa [Result.score, e] using h2
  · have e : ¬ (1 : ℝ) = 0.8 := by norm_num
    simpa [Result.score, e] using h3

/-- The iterated smoother for two seeds of which only one was swept, and for the swept one. -/
example (file : Tables) (hf : file "L96_EXP" = some (Result.iteratedLorenzTable
      [⟨"", "", 101, 20, 10, 0, 0, 3, 10⟩, ⟨"", "", 101, 40, 10, 0, 0, 5, 6⟩, ⟨"", "", 201, 40, 10, 0, 0, 5, 6⟩])) :
    (∃ o, smoother "L96_EXP" (lorenzConds 20 10) [101] (Conn.connect file) = (.ok o, Conn.connect file) ∧ ReportsLine o [(3, 10)]) ∧
      smoother "L96_EXP" (lorenzConds 20 10) [101, 201] (Conn.connect file) = (.error .value, Conn.connect file) := by
  refine ⟨?_, ?_⟩
  · obtain ⟨o, h1, h2⟩ := (C88_iterated_lorenz_table (c := Conn.connect file) hf 20 10 [101]).1 (by simp)
    exact ⟨o, h1, by simpa [Result.score] using h2⟩
  · exact (C88_iterated_lorenz_table (c := Conn.connect file) hf 20 10 [101, 201]).2 ⟨101, by simp, 201, by simp, by simp⟩

/-- The same for the turning target, where the angle of the second seed is missing. -/
example (file : Tables) (hf : file "BOTT_EXP" = some (Result.iteratedTurnTable
      [⟨"", "angle", 101, 5, 50, 0, 0, 3, 10⟩, ⟨"", "position", 101, 5, 50, 0, 0, 5, 6⟩, ⟨"", "position", 201, 5, 50, 0, 0, 7, 8⟩])) :
    (∃ o, smoother "BOTT_EXP" (turnConds "position" 50) [101, 201] (Conn.connect file) = (.ok o, Conn.connect file) ∧
      ReportsLine o [(5, 6), (7, 8)]) ∧
      smoother "BOTT_EXP" (turnConds "angle" 50) [101, 201] (Conn.connect file) = (.error .value, Conn.connect file) := by
  refine ⟨?_, ?_⟩
  · obtain ⟨o, h1, h2⟩ := (C88_iterated_turn_table (c := Conn.connect file) hf "position" 50 [101, 201]).1 (by simp)
    exact ⟨o, h1, by simpa [Result.score] using h2⟩
  · exact (C88_iterated_turn_table (c := Conn.connect file) hf "angle" 50 [101, 201]).2 ⟨101, by simp, 201, by simp, by simp⟩

/-- A `NULL` among the scores. -/
example (file : Tables) (hf : file "UNGM_EXP" = some ⟨["Seed", "RMSE", "NLL"], ["Seed"], [[.num 1, .num 3, .num 4], [.num 1, .num 5, .null]]⟩) :
    line "UNGM_EXP" [("Seed", .num 1)] (Conn.connect file) = (.error .type, Conn.connect file) := by
  refine C88_not_a_number (c := Conn.connect file) hf (by decide) (by decide) (by decide) (fun r hr col hcol => ?_) (r := [.num 1, .num 5, .null])
    (by simp) (by simp only [List.forall_mem_cons]; exact ⟨⟨rfl, nofun⟩, nofun⟩) (col := "NLL") (by simp)
    fun x (h : Cell.null = .num x) => nomatch h
  simp only [List.mem_cons, List.not_mem_nil, or_false] at hr hcol
  rcases hr with rfl | rfl <;> rcases hcol with rfl | rfl
  exacts [.inl ⟨3, rfl⟩, .inl ⟨4, rfl⟩, .inl ⟨5, rfl⟩, .inr (.inl rfl)]

end Display

end Verif
