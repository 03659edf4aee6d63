import Mathlib.Data.List.Nodup

/-!
# C35: saving results to CSV and reading them back

Model of `extensions/saveReadCSV.py:37-120`.  Simplifications: numbers are an abstract type with `fmt` (Python's `str`) and `parse`
(`np.array([...], dtype=float)`), assumed to be inverse to each other and to use no separator, quote or newline (`Faithful`; an instance
is given for natural numbers); complex numbers are left out; a cell that is itself a list is an exception in the model (in Python its
text is written, which cannot be read back); the newline `\r\n` is written as `\n`; `makeDir` and time stamps are left out; exceptions
are `none` (files that were written before are not modelled in this case).
-/
namespace Verif.Sim.Csv

/-- Text. -/
abbrev Str := List Char

/-- Nested lists of numbers. -/
inductive Data (V : Type) where
  | num (v : V)
  | list (l : List (Data V))

variable {V : Type}

/-- `str(v)` and its inverse. -/
structure Fmt (V : Type) where
  fmt : V → Str
  parse : Str → Option V

/-- What is assumed about the text of numbers. -/
structure Faithful (F : Fmt V) : Prop where
  parse_fmt : ∀ v, F.parse (F.fmt v) = some v
  nonempty : ∀ v, F.fmt v ≠ []
  comma : ∀ v, ',' ∉ F.fmt v
  newline : ∀ v, '\n' ∉ F.fmt v

/-- A list of rows as nested list. -/
def ofRows (rows : List (List V)) : Data V := .list (rows.map fun r => .list (r.map .num))

/-- `csvWriter.writerow` of numbers, without the end of line. -/
def rowText (F : Fmt V) (r : List V) : Str := [','].intercalate (r.map F.fmt)

/-- The text of a file. -/
def fileText (F : Fmt V) (rows : List (List V)) : Str := rows.flatMap fun r => rowText F r ++ ['\n']

/-- A cell. -/
def asNum : Data V → Option V
  | .num v => some v
  | .list _ => none

/-- A row. -/
def asRow : Data V → Option (List V)
  | .num _ => none
  | .list l => l.mapM asNum

/-- `saveCSV(data)` (`saveReadCSV.py:37-71`): the text of the file. -/
def saveCSV (F : Fmt V) : Data V → Option Str
  | .num _ => none
  | .list [] => none
  | .list (.list r :: ds) => ((Data.list r :: ds).mapM asRow).map (fileText F)
  | .list (.num v :: ds) => ((Data.num v :: ds).mapM asNum).map fun r => fileText F [r]

/-- The lines of a file. -/
def linesOf (t : Str) : List Str :=
  if (t.splitOn '\n').getLast? = some [] then (t.splitOn '\n').dropLast else t.splitOn '\n'

/-- The cells of a line (`csv.reader` returns an empty list for an empty line). -/
def cells (l : Str) : List Str := if l = [] then [] else l.splitOn ','

/-- `readCSV(path)` (`saveReadCSV.py:73-99`): `data if len(data) > 1 else data[0]`. -/
def readCSV (F : Fmt V) (t : Str) : Option (Data V) :=
  match (linesOf t).mapM fun l => (cells l).mapM F.parse with
  | none => none
  | some [] => none
  | some [r] => some (.list (r.map .num))
  | some rows => some (ofRows rows)

/-- `str(ind)`. -/
def digits (i : ℕ) : Str := Nat.toDigits 10 i

mutual
/-- `_recursiveSaveList(data, fileName)` (`saveReadCSV.py:101-109`): the files written, in order. -/
def files (F : Fmt V) (name : Str) : Data V → Option (List (Str × Str))
  | .num _ => none
  | .list [] => none
  | .list (.num _ :: _) => none
  | .list (.list [] :: _) => none
  | .list (.list (.num v :: r) :: ds) => (saveCSV F (.list (.list (.num v :: r) :: ds))).map fun t => [(name, t)]
  | .list (.list (.list x :: r) :: ds) =>
    (files F (name ++ digits 0) (.list (.list x :: r))).bind fun a => (filesL F name 1 ds).map fun b => a ++ b
/-- The loop over the elements, from the index `i` on. -/
def filesL (F : Fmt V) (name : Str) (i : ℕ) : List (Data V) → Option (List (Str × Str))
  | [] => some []
  | d :: ds => (files F (name ++ digits i) d).bind fun a => (filesL F name (i + 1) ds).map fun b => a ++ b
end

/-- `_saveDictToCSV(data, fileName)` (`saveReadCSV.py:111-113`). -/
def saveDict (F : Fmt V) (name : Str) : List (Str × Data V) → Option (List (Str × Str))
  | [] => some []
  | (k, d) :: r => (files F (name ++ k) d).bind fun a => (saveDict F name r).map fun b => a ++ b

/-- The content of a file after writing all of them: the last one written under that name. -/
def content (fs : List (Str × Str)) (name : Str) : Option Str := (fs.reverse.find? fun e => decide (e.1 = name)).map Prod.snd

/-! ### One file -/

theorem mapM_num (r : List V) : (r.map Data.num).mapM asNum = some r := by
  induction r with
  | nil => rfl
  | cons v r ih => simp [List.mapM_cons, asNum, ih]

theorem mapM_rows (rows : List (List V)) : (rows.map fun r => Data.list (r.map .num)).mapM asRow = some rows := by
  induction rows with
  | nil => rfl
  | cons v r ih =>
    have : asRow (Data.list (v.map .num)) = some v := mapM_num v
    simp only [List.map_cons, List.mapM_cons, this, ih]
    rfl

theorem save_rows (F : Fmt V) (rows : List (List V)) (h : rows ≠ []) : saveCSV F (ofRows rows) = some (fileText F rows) := by
  cases rows with
  | nil => exact absurd rfl h
  | cons r rows =>
    have := mapM_rows (r :: rows)
    simp only [List.map_cons] at this
    simp only [ofRows, List.map_cons, saveCSV, this]
    rfl

theorem cells_rowText (F : Fmt V) (hF : Faithful F) (r : List V) : (cells (rowText F r)).mapM F.parse = some r := by
  have hm : ∀ r : List V, (r.map F.fmt).mapM F.parse = some r := by
    intro r
    induction r with
    | nil => rfl
    | cons v r ih => simp [List.mapM_cons, hF.parse_fmt, ih]
  cases r with
  | nil => rfl
  | cons v r =>
    have hne : rowText F (v :: r) ≠ [] := by
      cases r with
      | nil => simpa [rowText, List.intercalate] using hF.nonempty v
      | cons w r => simp [rowText, List.intercalate, List.intersperse]
    rw [cells, if_neg hne, rowText, List.splitOn_intercalate ',' ?_ (by simp)]
    · exact hm _
    · intro l hl
      obtain ⟨w, _, rfl⟩ := List.mem_map.1 hl
      exact hF.comma w

theorem newline_rowText (F : Fmt V) (hF : Faithful F) (r : List V) : '\n' ∉ rowText F r := by
  simp only [rowText]
  induction r with
  | nil => simp [List.intercalate]
  | cons v r ih =>
    cases r with
    | nil => simpa [List.intercalate] using hF.newline v
    | cons w r =>
      have : [','].intercalate ((v :: w :: r).map F.fmt) = F.fmt v ++ ',' :: [','].intercalate ((w :: r).map F.fmt) := by
        simp [List.intercalate, List.intersperse]
      rw [this]
      simp only [List.mem_append, List.mem_cons, not_or]
      exact ⟨hF.newline v, by decide, ih⟩

theorem linesOf_fileText (F : Fmt V) (hF : Faithful F) (rows : List (List V)) : linesOf (fileText F rows) = rows.map (rowText F) := by
  have h : ∀ rows : List (List V), fileText F rows = ['\n'].intercalate (rows.map (rowText F) ++ [[]]) := by
    intro rows
    induction rows with
    | nil => simp [fileText, List.intercalate]
    | cons r rows ih =>
      have h1 : fileText F (r :: rows) = rowText F r ++ '\n' :: fileText F rows := by simp [fileText]
      rw [h1, ih]
      cases hx : rows.map (rowText F) ++ [[]] with
      | nil => simp at hx
      | cons a l => simp [List.intercalate, hx, List.intersperse]
  have hs : (fileText F rows).splitOn '\n' = rows.map (rowText F) ++ [[]] := by
    rw [h, List.splitOn_intercalate '\n' ?_ (by simp)]
    intro l hl
    rcases List.mem_append.1 hl with hl | hl
    · obtain ⟨r, _, rfl⟩ := List.mem_map.1 hl
      exact newline_rowText F hF r
    · simp at hl; simp [hl]
  simp [linesOf, hs]

theorem read_rows (F : Fmt V) (hF : Faithful F) (rows : List (List V)) :
    readCSV F (fileText F rows) = match rows with
      | [] => none
      | [r] => some (.list (r.map .num))
      | rows => some (ofRows rows) := by
  have : (linesOf (fileText F rows)).mapM (fun l => (cells l).mapM F.parse) = some rows := by
    rw [linesOf_fileText F hF]
    induction rows with
    | nil => rfl
    | cons r rows ih => simp [List.mapM_cons, cells_rowText F hF, ih]
  simp only [readCSV, this]
  match rows with
  | [] => rfl
  | [r] => rfl
  | r :: r' :: rows => rfl

/-- **C35 (one file), partial.** A list of two or more rows of numbers, of any lengths, and a non-empty plain list of numbers, are read
back unchanged.  Missing: a list with a single row (`C35_one_row`). -/
theorem C35_file_partial (F : Fmt V) (hF : Faithful F) :
    (∀ rows : List (List V), 2 ≤ rows.length → (saveCSV F (ofRows rows)).bind (readCSV F) = some (ofRows rows)) ∧
    ∀ r : List V, r ≠ [] → (saveCSV F (.list (r.map .num))).bind (readCSV F) = some (.list (r.map .num)) := by
  constructor
  · intro rows h
    rw [save_rows F rows (by rintro rfl; simp at h), Option.bind_some, read_rows F hF]
    match rows, h with
    | r :: r' :: rows, _ => rfl
  · intro r h
    cases r with
    | nil => exact absurd rfl h
    | cons v r =>
      have := mapM_num (v :: r)
      simp only [List.map_cons] at this
      simp only [List.map_cons, saveCSV, this, Option.map_some, Option.bind_some]
      rw [read_rows F hF]
      rfl

/-- False for the code: a list with one row is read back as a plain list. -/
theorem C35_one_row (F : Fmt V) (hF : Faithful F) (r : List V) :
    (saveCSV F (ofRows [r])).bind (readCSV F) = some (.list (r.map .num)) ∧ Data.list (r.map .num) ≠ ofRows [r] := by
  constructor
  · rw [save_rows F [r] (by simp), Option.bind_some, read_rows F hF]
  · intro h
    simp only [ofRows, List.map_cons, List.map_nil, Data.list.injEq] at h
    cases r with
    | nil => cases h
    | cons v r => simp at h

/-- False for the code: a plain list of numbers (the results of a simulation without sweep) cannot be saved by `_recursiveSaveList`. -/
theorem C35_flat (F : Fmt V) (name : Str) (v : V) (ds : List (Data V)) : files F name (.list (.num v :: ds)) = none := by
  simp only [files]

/-! ### All files of nested lists -/

/-- `n` levels of non-empty lists above tables of at least two rows, the first of which is not empty. -/
def Deep : ℕ → Data V → Prop
  | 0, d => ∃ v r r' rows, d = ofRows ((v :: r) :: r' :: rows)
  | n + 1, d => ∃ l, d = .list l ∧ l ≠ [] ∧ ∀ x ∈ l, Deep n x

/-- The lists of the upper `n` levels have at most ten elements. -/
def Narrow : ℕ → Data V → Prop
  | 0, _ => True
  | n + 1, d => ∀ l, d = .list l → l.length ≤ 10 ∧ ∀ x ∈ l, Narrow n x

/-- The part at a path of indices. -/
def sub : Data V → List ℕ → Option (Data V)
  | d, [] => some d
  | .num _, _ :: _ => none
  | .list l, i :: p => (l[i]?).bind fun x => sub x p

/-- The paths of length `n` with their parts, in order. -/
def parts : ℕ → Data V → List (List ℕ × Data V)
  | 0, d => [([], d)]
  | _ + 1, .num _ => []
  | n + 1, .list l => l.zipIdx.flatMap fun e => (parts n e.1).map fun q => (e.2 :: q.1, q.2)

/-- The name of the file for a path. -/
def fileName (name : Str) (p : List ℕ) : Str := name ++ p.flatMap digits

theorem filesL_eq (F : Fmt V) (G : Str → Data V → List (Str × Str)) (l : List (Data V)) :
    (∀ x ∈ l, ∀ nm, files F nm x = some (G nm x)) → ∀ (name : Str) (k : ℕ),
    filesL F name k l = some ((l.zipIdx k).flatMap fun e => G (name ++ digits e.2) e.1) := by
  induction l with
  | nil => intro _ name k; simp [filesL]
  | cons d l ih =>
    intro h name k
    simp only [filesL, h d (by simp), Option.bind_some, ih (fun x hx => h x (by simp [hx])), List.zipIdx_cons, List.flatMap_cons,
      Option.map_some]

/-- The shape of the elements decides which branch is taken. -/
theorem deep_list (n : ℕ) (x : Data V) (h : Deep n x) : ∃ y r, x = .list (.list y :: r) := by
  cases n with
  | zero =>
    obtain ⟨v, r, r', rows, rfl⟩ := h
    exact ⟨_, _, rfl⟩
  | succ n =>
    obtain ⟨l, rfl, hne, hall⟩ := h
    cases l with
    | nil => exact absurd rfl hne
    | cons x l =>
      have hx := hall x (by simp)
      cases n with
      | zero => obtain ⟨v, r, r', rows, rfl⟩ := hx; exact ⟨_, _, rfl⟩
      | succ n => obtain ⟨l', rfl, _, _⟩ := hx; exact ⟨_, _, rfl⟩

theorem files_eq (F : Fmt V) : ∀ (n : ℕ) (d : Data V), Deep n d → ∀ name,
    files F name d = some ((parts n d).map fun e => (fileName name e.1, (saveCSV F e.2).getD []))
  | 0, d, h, name => by
    obtain ⟨v, r, r', rows, rfl⟩ := h
    have := save_rows F ((v :: r) :: r' :: rows) (by simp)
    simp only [ofRows, List.map_cons] at this
    simp only [ofRows, List.map_cons, files, this, parts, fileName, Option.map_some, List.map_nil, List.flatMap_nil, List.append_nil,
      Option.getD_some]
  | n + 1, d, h, name => by
    obtain ⟨l, rfl, hne, hall⟩ := h
    cases l with
    | nil => exact absurd rfl hne
    | cons x l =>
      obtain ⟨y, r, hx⟩ := deep_list n x (hall x (by simp))
      have key := filesL_eq F (fun nm x => (parts n x).map fun e => (fileName nm e.1, (saveCSV F e.2).getD [])) (x :: l)
        (fun x hx nm => files_eq F n x (hall x hx) nm) name 0
      have hf : files F name (.list (x :: l)) = filesL F name 0 (x :: l) := by
        subst hx
        simp only [files, filesL, Nat.zero_add]
      rw [hf, key]
      simp only [parts, List.map_flatMap, List.map_map]
      congr 1
      apply List.flatMap_congr
      rintro ⟨a, i⟩ _
      apply List.map_congr_left
      rintro ⟨p, e⟩ _
      simp [fileName, List.append_assoc]

theorem mem_parts : ∀ (n : ℕ) (d : Data V) (p : List ℕ) (e : Data V), (p, e) ∈ parts n d ↔ p.length = n ∧ sub d p = some e
  | 0, d, p, e => by
    cases p with
    | nil => simp [parts, sub, eq_comm]
    | cons i p => simp [parts]
  | n + 1, .num v, p, e => by
    cases p <;> simp [parts, sub]
  | n + 1, .list l, p, e => by
    simp only [parts, List.mem_flatMap, List.mem_map, Prod.exists, Prod.mk.injEq]
    constructor
    · rintro ⟨x, i, hx, q, e', hq, rfl, rfl⟩
      have := List.mem_zipIdx_iff_getElem?.1 hx
      obtain ⟨h1, h2⟩ := (mem_parts n x q e').1 hq
      refine ⟨by simp [h1], ?_⟩
      simp only at this
      simp [sub, this, h2]
    · rintro ⟨h1, h2⟩
      cases p with
      | nil => simp at h1
      | cons i q =>
        simp only [sub] at h2
        cases hx : l[i]? with
        | none => simp [hx] at h2
        | some x =>
          simp only [hx, Option.bind_some] at h2
          refine ⟨x, i, List.mem_zipIdx_iff_getElem?.2 hx, q, e, ?_, rfl, rfl⟩
          exact (mem_parts n x q e).2 ⟨by simpa using h1, h2⟩

theorem digits_inj {i j : ℕ} (h : digits i = digits j) : i = j := by
  rw [← Nat.ofDigitChars_ten_toDigits (n := i), ← Nat.ofDigitChars_ten_toDigits (n := j)]
  simp only [digits] at h
  rw [h]

theorem narrow_lt : ∀ (n : ℕ) (d : Data V) (p : List ℕ) (e : Data V), Narrow n d → p.length = n → sub d p = some e → ∀ i ∈ p, i < 10
  | 0, d, p, e, _, hl, _ => by
    have : p = [] := List.eq_nil_of_length_eq_zero hl
    subst this; simp
  | n + 1, d, [], e, _, hl, _ => by simp at hl
  | n + 1, .num v, i :: p, e, _, _, hs => by simp [sub] at hs
  | n + 1, .list l, i :: p, e, hn, hl, hs => by
    obtain ⟨h1, h2⟩ := hn l rfl
    simp only [sub] at hs
    cases hx : l[i]? with
    | none => simp [hx] at hs
    | some x =>
      simp only [hx, Option.bind_some] at hs
      have hlt := (List.getElem?_eq_some_iff.1 hx).1
      have := narrow_lt n x p e (h2 x (List.mem_of_getElem? hx)) (by simpa using hl) hs
      intro j hj
      rcases List.mem_cons.1 hj with rfl | hj
      · omega
      · exact this j hj

theorem path_inj : ∀ (p q : List ℕ), p.length = q.length → (∀ i ∈ p, i < 10) → (∀ i ∈ q, i < 10) →
    p.flatMap digits = q.flatMap digits → p = q
  | [], [], _, _, _, _ => rfl
  | [], _ :: _, h, _, _, _ => by simp at h
  | _ :: _, [], h, _, _, _ => by simp at h
  | i :: p, j :: q, h, hp, hq, he => by
    have hi : digits i = [i.digitChar] := Nat.toDigits_of_lt_base (hp i (by simp))
    have hj : digits j = [j.digitChar] := Nat.toDigits_of_lt_base (hq j (by simp))
    simp only [List.flatMap_cons, hi, hj, List.cons_append, List.nil_append, List.cons.injEq] at he
    have : i = j := digits_inj (by rw [hi, hj, he.1])
    rw [this, path_inj p q (by simpa using h) (fun k hk => hp k (by simp [hk])) (fun k hk => hq k (by simp [hk])) he.2]

/-- The condition under which the parts of one entry get different names. -/
def Safe (n : ℕ) (d : Data V) : Prop := Deep n d ∧ (n ≤ 1 ∨ Narrow n d)

theorem safe_inj (n : ℕ) (d : Data V) (h : Safe n d) (p q : List ℕ) (e f : Data V) (hp : (p, e) ∈ parts n d) (hq : (q, f) ∈ parts n d)
    (he : p.flatMap digits = q.flatMap digits) : p = q := by
  obtain ⟨hp1, hp2⟩ := (mem_parts n d p e).1 hp
  obtain ⟨hq1, hq2⟩ := (mem_parts n d q f).1 hq
  rcases h.2 with h | h
  · match p, q, hp1, hq1 with
    | [], [], _, _ => rfl
    | [], _ :: _, h1, h2 => simp at h1 h2; omega
    | _ :: _, [], h1, h2 => simp at h1 h2; omega
    | [i], [j], _, _ =>
      simp only [List.flatMap_cons, List.flatMap_nil, List.append_nil] at he
      rw [digits_inj he]
    | [i], _ :: _ :: _, h1, h2 => simp at h1 h2; omega
    | _ :: _ :: _, _, h1, h2 => simp at h1; omega
  · exact path_inj p q (hp1.trans hq1.symm) (narrow_lt n d p e h hp1 hp2) (narrow_lt n d q f h hq1 hq2) he

theorem content_eq (fs : List (Str × Str)) (name t : Str) (hm : (name, t) ∈ fs) (hu : ∀ t', (name, t') ∈ fs → t' = t) :
    content fs name = some t := by
  simp only [content]
  cases hx : fs.reverse.find? fun e => decide (e.1 = name) with
  | none =>
    rw [List.find?_eq_none] at hx
    have := hx (name, t) (by simp [hm])
    simp at this
  | some e =>
    have h1 := List.find?_some hx
    have h2 := List.mem_of_find?_eq_some hx
    simp only [decide_eq_true_eq] at h1
    obtain ⟨a, b⟩ := e
    simp only at h1
    subst h1
    rw [Option.map_some, hu b (by simpa using h2)]

theorem deep_sub : ∀ (n : ℕ) (d : Data V) (p : List ℕ) (e : Data V), Deep n d → p.length = n → sub d p = some e → Deep 0 e
  | 0, d, p, e, h, hl, hs => by
    have : p = [] := List.eq_nil_of_length_eq_zero hl
    subst this
    simp only [sub, Option.some.injEq] at hs
    rw [← hs]; exact h
  | n + 1, d, [], e, _, hl, _ => by simp at hl
  | n + 1, d, i :: p, e, h, hl, hs => by
    obtain ⟨l, rfl, _, hall⟩ := h
    simp only [sub] at hs
    cases hx : l[i]? with
    | none => simp [hx] at hs
    | some x =>
      simp only [hx, Option.bind_some] at hs
      exact deep_sub n x p e (hall x (List.mem_of_getElem? hx)) (by simpa using hl) hs

/-- The key has no digit at its end. -/
def NoDigitEnd (k : Str) : Prop := ∀ c, k.getLast? = some c → c.isDigit = false

theorem key_inj (k k' u u' : Str) (hk : NoDigitEnd k) (hk' : NoDigitEnd k') (hu : ∀ c ∈ u, c.isDigit = true)
    (hu' : ∀ c ∈ u', c.isDigit = true) (h : k ++ u = k' ++ u') : k = k' ∧ u = u' := by
  have drop : ∀ (u k : Str), (∀ c ∈ u, c.isDigit = true) → NoDigitEnd k → (k ++ u).reverse.dropWhile Char.isDigit = k.reverse := by
    intro u k hu hk
    rw [List.reverse_append]
    have : ∀ c ∈ u.reverse, c.isDigit = true := by simpa using hu
    generalize u.reverse = v at this
    induction v with
    | nil =>
      rw [List.nil_append]
      cases hr : k.reverse with
      | nil => rfl
      | cons c r =>
        have : k.getLast? = some c := by
          have h1 := congrArg List.reverse hr
          simp only [List.reverse_reverse, List.reverse_cons] at h1
          rw [h1]; simp
        simp [List.dropWhile_cons, hk c this]
    | cons c v ih =>
      simp only [List.cons_append, List.dropWhile_cons, this c (by simp), if_true]
      exact ih fun d hd => this d (by simp [hd])
  have h1 := drop u k hu hk
  have h2 := drop u' k' hu' hk'
  rw [h] at h1
  have hkk : k = k' := by
    have := h1.symm.trans h2
    simpa using congrArg List.reverse this
  subst hkk
  exact ⟨rfl, List.append_cancel_left h⟩

theorem isDigit_path (p : List ℕ) : ∀ c ∈ p.flatMap digits, c.isDigit = true := by
  intro c hc
  obtain ⟨i, _, hi⟩ := List.mem_flatMap.1 hc
  exact Nat.isDigit_of_mem_toDigits (by omega) (by omega) hi

theorem saveDict_eq (F : Fmt V) (name : Str) : ∀ (items : List (Str × Data V)) (depth : Str → ℕ),
    (∀ i ∈ items, Deep (depth i.1) i.2) →
    saveDict F name items = some (items.flatMap fun i => (parts (depth i.1) i.2).map fun e =>
      (fileName (name ++ i.1) e.1, (saveCSV F e.2).getD []))
  | [], _, _ => rfl
  | (k, d) :: r, depth, h => by
    have := saveDict_eq F name r depth fun i hi => h i (by simp [hi])
    simp only [saveDict, files_eq F (depth k) d (h (k, d) (by simp)), this, Option.bind_some, Option.map_some, List.flatMap_cons]

/-- **C35 (all files), partial.** For a dictionary of nested results whose keys have no digit at their end, and whose entries have one
level of lists above the tables or no list with more than ten elements, saving works, and afterwards every part of every entry can be
read back unchanged from the file named after its key and indices.  Missing: the other keys and longer lists (`C35_collision`,
`C35_key_collision`), tables with one row, and plain lists. -/
theorem C35_parts_partial (F : Fmt V) (hF : Faithful F) (name : Str) (items : List (Str × Data V)) (depth : Str → ℕ)
    (hk : (items.map Prod.fst).Nodup) (hd : ∀ i ∈ items, NoDigitEnd (name ++ i.1)) (hs : ∀ i ∈ items, Safe (depth i.1) i.2) :
    ∃ fs, saveDict F name items = some fs ∧
      ∀ k d p e, (k, d) ∈ items → p.length = depth k → sub d p = some e →
        (content fs (fileName (name ++ k) p)).bind (readCSV F) = some e := by
  refine ⟨_, saveDict_eq F name items depth fun i hi => (hs i hi).1, ?_⟩
  intro k d p e hi hp he
  have hpart := (mem_parts (depth k) d p e).2 ⟨hp, he⟩
  have hc := content_eq (items.flatMap fun i => (parts (depth i.1) i.2).map fun e =>
      (fileName (name ++ i.1) e.1, (saveCSV F e.2).getD [])) (fileName (name ++ k) p) ((saveCSV F e).getD []) ?_ ?_
  · rw [hc, Option.bind_some]
    obtain ⟨v, r, r', rows, rfl⟩ := deep_sub _ _ _ _ (hs _ hi).1 hp he
    rw [save_rows F _ (by simp), Option.getD_some, read_rows F hF]
  · exact List.mem_flatMap.2 ⟨(k, d), hi, List.mem_map.2 ⟨(p, e), hpart, rfl⟩⟩
  · intro t' ht
    obtain ⟨⟨k', d'⟩, hi', ht⟩ := List.mem_flatMap.1 ht
    obtain ⟨⟨q, e'⟩, hq, ht⟩ := List.mem_map.1 ht
    simp only [Prod.mk.injEq, fileName] at ht
    obtain ⟨h1, h2⟩ := ht
    obtain ⟨hkk, hpp⟩ := key_inj _ _ _ _ (hd _ hi') (hd _ hi) (isDigit_path q) (isDigit_path p) h1
    have hkk : k' = k := List.append_cancel_left hkk
    subst hkk
    have hdd : d' = d := by
      have hinj := List.inj_on_of_nodup_map hk hi' hi rfl
      exact (Prod.mk.inj hinj).2
    subst hdd
    have := safe_inj _ _ (hs _ hi) q p e' e hq hpart hpp
    subst this
    obtain ⟨_, h3⟩ := (mem_parts _ _ _ _).1 hq
    rw [he, Option.some.injEq] at h3
    rw [← h2, h3]

/-! ### Concrete numbers -/

/-- Natural numbers in decimal notation. -/
def natFmt : Fmt ℕ := ⟨digits, fun s => if s = [] then none else some (Nat.ofDigitChars 10 s 0)⟩

/-- They satisfy what is assumed. -/
theorem natFmt_faithful : Faithful natFmt where
  parse_fmt v := by
    have : digits v ≠ [] := Nat.toDigits_ne_nil
    simp only [natFmt, this, if_false]
    rw [digits, Nat.ofDigitChars_ten_toDigits]
  nonempty v := Nat.toDigits_ne_nil
  comma v h := by
    have := Nat.isDigit_of_mem_toDigits (by omega) (by omega) h
    revert this; decide
  newline v h := by
    have := Nat.isDigit_of_mem_toDigits (by omega) (by omega) h
    revert this; decide

/-- A table with the two rows `[a]` and `[]`. -/
def table (a : ℕ) : Data ℕ := ofRows [[a], []]

/-- A round trip. -/
example : saveCSV natFmt (ofRows [[10, 2, 3], [4], []]) = some "10,2,3\n4\n\n".toList := by decide

/-- Three files, in the second of which the table of the index 1 is found. -/
example : ∃ fs, saveDict natFmt "r_".toList [("x".toList, .list [table 5, table 6, table 7])] = some fs ∧ fs.length = 3 ∧
    content fs "r_x1".toList = some "6\n\n".toList := ⟨_, rfl, by decide, by decide⟩

/-- False for the code: with two levels of indices, the files of the parts (1, 11) and (11, 1) have the same name, and the first one is
lost. -/
theorem C35_collision : ∃ (d : Data ℕ) (fs : List (Str × Str)), files natFmt "x".toList d = some fs ∧
    (sub d [1, 11]).isSome ∧ fileName "x".toList [1, 11] = fileName "x".toList [11, 1] ∧
    content fs (fileName "x".toList [1, 11]) = saveCSV natFmt (table 2) ∧
    sub d [1, 11] = some (table 1) ∧ sub d [11, 1] = some (table 2) := by
  refine ⟨.list (.list [table 0] :: .list (List.replicate 12 (table 1)) :: (List.replicate 9 (.list [table 0]) ++
    [.list [table 0, table 2]])), _, rfl, by decide, by decide, by decide, rfl, rfl⟩

/-- False for the code: the entry 11 of the result `a` and the entry 1 of the result `a1` share a file. -/
theorem C35_key_collision : ∃ fs, saveDict natFmt [] [("a".toList, .list (List.replicate 12 (table 1))), ("a1".toList,
      .list [table 0, table 2])] = some fs ∧
    fileName "a".toList [11] = fileName "a1".toList [1] ∧ content fs (fileName "a".toList [11]) = saveCSV natFmt (table 2) :=
  ⟨_, rfl, by decide, by decide⟩

end Verif.Sim.Csv
