import Verif.Lemmas.Serial

/-!
# Lemmas about text files
-/

set_option linter.unusedSectionVars false

namespace Verif

variable {K : Type}

theorem pieces_ne_nil (sep : Char → Bool) (l : List Char) : pieces sep l ≠ [] := by
  cases l with
  | nil => exact List.cons_ne_nil _ _
  | cons c l =>
    unfold pieces
    split
    · exact List.cons_ne_nil _ _
    · split <;> exact List.cons_ne_nil _ _

theorem pieces_cons {sep : Char → Bool} {c : Char} (h : sep c = false) (l : List Char) :
    ∃ w r, pieces sep l = w :: r ∧ pieces sep (c :: l) = (c :: w) :: r := by
  cases hp : pieces sep l with
  | nil => exact absurd hp (pieces_ne_nil sep l)
  | cons w r =>
    refine ⟨w, r, rfl, ?_⟩
    rw [pieces, hp]
    simp [h]

theorem pieces_solid {sep : Char → Bool} (w : List Char) (h : ∀ c ∈ w, sep c = false) :
    pieces sep w = [w] := by
  induction w with
  | nil => rfl
  | cons c w ih =>
    obtain ⟨u, r, h1, h2⟩ := pieces_cons (h c List.mem_cons_self) w
    rw [ih fun x hx => h x (List.mem_cons_of_mem _ hx)] at h1
    injection h1 with h1 h3
    subst h1 h3
    exact h2

theorem pieces_append {sep : Char → Bool} (w : List Char) (h : ∀ c ∈ w, sep c = false) {s : Char}
    (hs : sep s = true) (l : List Char) : pieces sep (w ++ s :: l) = w :: pieces sep l := by
  induction w with
  | nil =>
    rw [List.nil_append, pieces, if_pos hs]
  | cons c w ih =>
    obtain ⟨u, r, h1, h2⟩ := pieces_cons (h c List.mem_cons_self) (w ++ s :: l)
    rw [ih fun x hx => h x (List.mem_cons_of_mem _ hx)] at h1
    injection h1 with h1 h3
    subst h1 h3
    exact h2

theorem universalNewlines_id (l : List Char) (h : '\r' ∉ l) : universalNewlines l = l := by
  induction l with
  | nil => rfl
  | cons c l ih =>
    rw [List.mem_cons, not_or] at h
    unfold universalNewlines
    split
    · next h1 => cases h1
    · next h1 =>
      injection h1 with h1 _
      exact absurd h1.symm h.1
    · next h1 =>
      injection h1 with h1 _
      exact absurd h1.symm h.1
    · next h1 =>
      injection h1 with h1 h2
      subst h1 h2
      rw [ih h.2]

/-- A line without line breaks. -/
def NoBreak (l : List Char) : Prop := '\n' ∉ l ∧ '\r' ∉ l

theorem pieces_lines (lines : List (List Char)) (hl : ∀ l ∈ lines, '\n' ∉ l) (r : List Char)
    (hr : '\n' ∉ r) :
    pieces (fun c => decide (c = '\n')) ((lines.flatMap fun l => l ++ ['\n']) ++ r) =
      lines ++ [r] := by
  induction lines with
  | nil =>
    rw [List.flatMap_nil, List.nil_append]
    exact pieces_solid r fun c hc => decide_eq_false fun e => hr (e ▸ hc)
  | cons l lines ih =>
    rw [List.flatMap_cons, List.append_assoc, List.append_assoc, List.singleton_append,
      pieces_append l (fun c hc => decide_eq_false fun e : c = '\n' => hl l List.mem_cons_self (e ▸ hc)) rfl,
      ih fun x hx => hl x (List.mem_cons_of_mem _ hx)]
    rfl

theorem fileLines_eq (lines : List (List Char)) (hl : ∀ l ∈ lines, NoBreak l) (r : List Char)
    (hr : NoBreak r) :
    fileLines ((lines.flatMap fun l => l ++ ['\n']) ++ r) =
      lines ++ (if r = [] then [] else [r]) := by
  have h0 : '\r' ∉ (lines.flatMap fun l => l ++ ['\n']) ++ r := by
    rw [List.mem_append, List.mem_flatMap]
    rintro (⟨l, hl', h⟩ | h)
    · rw [List.mem_append, List.mem_singleton] at h
      rcases h with h | h
      · exact (hl l hl').2 h
      · exact absurd h (by decide)
    · exact hr.2 h
  unfold fileLines
  rw [universalNewlines_id _ h0, pieces_lines lines (fun l h => (hl l h).1) r hr.1]
  simp only [List.getLast?_append, List.getLast?_singleton, Option.some_or, Option.some.injEq]
  by_cases h : r = []
  · rw [if_pos h, if_pos h, List.append_nil, List.dropLast_concat]
  · rw [if_neg h, if_neg h]

/-- Words separated by single spaces. -/
theorem words_eq (parts : List String) (hp : ∀ a ∈ parts, Solid a ∧ a ≠ "") (v : List Char)
    (hv : ∀ c ∈ v, pyIsSpace c = false) :
    words ((parts.flatMap fun a => a.toList ++ [' ']) ++ v) =
      parts ++ (if v = [] then [] else [String.ofList v]) := by
  unfold words
  induction parts with
  | nil =>
    rw [List.flatMap_nil, List.nil_append, pieces_solid v hv, List.nil_append]
    by_cases h : v = [] <;> simp [h]
  | cons a parts ih =>
    rw [List.flatMap_cons, List.append_assoc, List.append_assoc, List.singleton_append,
      pieces_append a.toList (hp a List.mem_cons_self).1 (by decide), List.filter_cons]
    have ha : a.toList ≠ [] := fun e => (hp a List.mem_cons_self).2 (String.toList_injective e)
    rw [if_pos (decide_eq_true ha), List.map_cons, ih fun x hx => hp x (List.mem_cons_of_mem _ hx),
      String.ofList_toList]
    rfl

/-- One line of a text file, without the line break. -/
def txtLine (fmt : K → String) (x : List String × K) : List Char :=
  (x.1.flatMap fun a => a.toList ++ [' ']) ++ (fmt x.2).toList

theorem writeTxt_eq (fmt : K → String) (d : PyDict K) :
    writeTxt fmt d = (d.map (txtLine fmt)).flatMap fun l => l ++ ['\n'] := by
  unfold writeTxt txtLine
  rw [List.flatMap_map]

theorem solid_noBreak {l : List Char} (h : ∀ c ∈ l, pyIsSpace c = false) : NoBreak l :=
  ⟨fun h' => absurd (h _ h') (by decide), fun h' => absurd (h _ h') (by decide)⟩

theorem noBreak_append {l r : List Char} (hl : NoBreak l) (hr : NoBreak r) : NoBreak (l ++ r) :=
  ⟨fun h => (List.mem_append.1 h).elim hl.1 hr.1, fun h => (List.mem_append.1 h).elim hl.2 hr.2⟩

theorem noBreak_parts (parts : List String) (hp : ∀ a ∈ parts, Solid a) :
    NoBreak (parts.flatMap fun a => a.toList ++ [' ']) := by
  induction parts with
  | nil => exact ⟨List.not_mem_nil, List.not_mem_nil⟩
  | cons a parts ih =>
    rw [List.flatMap_cons]
    exact noBreak_append (noBreak_append (solid_noBreak (hp a List.mem_cons_self))
      ⟨by decide, by decide⟩) (ih fun x hx => hp x (List.mem_cons_of_mem _ hx))

theorem txtLine_noBreak {fmt : K → String} {x : List String × K} (hp : ∀ a ∈ x.1, Solid a)
    (hv : Solid (fmt x.2)) : NoBreak (txtLine fmt x) :=
  noBreak_append (noBreak_parts x.1 hp) (solid_noBreak hv)

/-- An item that is read back. -/
def Readable (mc : Bool) (fmt : K → String) (parse : String → Option K) (x : List String × K) : Prop :=
  x.1.length = (if mc then 2 else 3) ∧ (mc = false → x.1.head? = some "E" ∨ x.1.head? = some "P") ∧
    (∀ a ∈ x.1, Solid a ∧ a ≠ "") ∧ Solid (fmt x.2) ∧ fmt x.2 ≠ "" ∧ parse (fmt x.2) = some x.2

theorem readTxtRow_parts (mc : Bool) (parse : String → Option K) (key : List String) (s : String)
    (h1 : key.length = (if mc then 2 else 3))
    (h2 : mc = false → key.head? = some "E" ∨ key.head? = some "P") (r : List String × K) :
    readTxtRow mc parse (key ++ [s]) = .ok r ↔ ∃ v, parse s = some v ∧ r = (key, v) := by
  unfold readTxtRow
  rw [R.ite_throw, R.ite_throw, List.getLastD_concat, List.dropLast_concat]
  have e1 : (key ++ [s]).length = (if mc then 3 else 4) := by
    rw [List.length_append, h1]
    cases mc <;> rfl
  have e2 : mc = false → (key ++ [s]).head? = some "E" ∨ (key ++ [s]).head? = some "P" := by
    intro hm
    cases key with
    | nil => cases mc <;> simp at h1
    | cons a key => exact h2 hm
  constructor
  · rintro ⟨-, -, h⟩
    cases hp : parse s with
    | none => rw [hp] at h; cases h
    | some v =>
      rw [hp] at h
      exact ⟨v, rfl, ((R.pure_ok _ _).1 h).symm⟩
  · rintro ⟨v, hv, rfl⟩
    refine ⟨not_not.2 e1, ?_, ?_⟩
    · rintro ⟨hm, h3, h4⟩
      rcases e2 (by cases mc <;> simp_all) with h | h
      · exact h3 h
      · exact h4 h
    · rw [hv]
      rfl

theorem words_txtLine {mc : Bool} {fmt : K → String} {parse : String → Option K}
    {x : List String × K} (h : Readable mc fmt parse x) :
    words (txtLine fmt x) = x.1 ++ [fmt x.2] := by
  obtain ⟨h1, h2, h3, h4, h5, h6⟩ := h
  unfold txtLine
  rw [words_eq x.1 h3 _ h4, if_neg, String.ofList_toList]
  exact fun e => h5 (String.toList_injective e)

theorem readTxtRow_txtLine {mc : Bool} {fmt : K → String} {parse : String → Option K}
    {x : List String × K} (h : Readable mc fmt parse x) :
    readTxtRow mc parse (words (txtLine fmt x)) = .ok x := by
  rw [words_txtLine h, readTxtRow_parts mc parse x.1 _ h.1 h.2.1]
  exact ⟨x.2, h.2.2.2.2.2, rfl⟩

theorem readTxt_rows {mc : Bool} {fmt : K → String} {parse : String → Option K} {d : PyDict K}
    (h : ∀ x ∈ d, Readable mc fmt parse x) :
    ((d.map (txtLine fmt)).mapM fun l => readTxtRow mc parse (words l)) = .ok d := by
  rw [mapM_R_eq_ok]
  induction d with
  | nil => exact List.Forall₂.nil
  | cons x d ih =>
    exact List.Forall₂.cons (readTxtRow_txtLine (h x List.mem_cons_self))
      (ih fun y hy => h y (List.mem_cons_of_mem _ hy))

/-- A file written from readable items with distinct keys is read back. -/
theorem readTxt_writeTxt {mc : Bool} {fmt : K → String} {parse : String → Option K} {d : PyDict K}
    (h : ∀ x ∈ d, Readable mc fmt parse x) (hn : (d.map Prod.fst).Nodup) :
    readTxt mc parse (writeTxt fmt d) = .ok d := by
  have e := fileLines_eq (d.map (txtLine fmt))
    (by
      intro l hl
      obtain ⟨x, hx, rfl⟩ := List.mem_map.1 hl
      exact txtLine_noBreak (fun a ha => ((h x hx).2.2.1 a ha).1) (h x hx).2.2.2.1)
    [] ⟨List.not_mem_nil, List.not_mem_nil⟩
  rw [List.append_nil, if_pos rfl, List.append_nil, ← writeTxt_eq] at e
  unfold readTxt
  rw [e, readTxt_rows h, R.ok_bind, dictOf_nodup d hn]
  rfl

theorem writeTxt_ne_nil {fmt : K → String} {d : PyDict K} (h : d ≠ []) : writeTxt fmt d ≠ [] := by
  cases d with
  | nil => exact absurd rfl h
  | cons x d =>
    unfold writeTxt
    rw [List.flatMap_cons]
    simp

end Verif
