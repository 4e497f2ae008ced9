import Verif.Model.Messages

/-!
# C126: validation errors name the rejected argument
-/

namespace Verif

/-- A character of an identifier. -/
def isNameChar (c : Char) : Bool := c.isAlphanum || c == '_'

theorem isNameChar_space {c : Char} (h : isNameChar c = true) : c.isWhitespace = false := by
  cases hw : c.isWhitespace with
  | false => rfl
  | true =>
    simp only [Char.isWhitespace, Bool.or_eq_true, decide_eq_true_eq] at hw
    rcases hw with ((rfl | rfl) | rfl) | rfl <;> revert h <;> decide

theorem isNameChar_ne {c : Char} (h : isNameChar c = true) : c ≠ '=' ∧ c ≠ ',' := by
  constructor <;> rintro rfl <;> revert h <;> decide

theorem rstrip_append {a b : List Char} {c : Char} (hc : c.isWhitespace = false) :
    (((a ++ c :: b).reverse.dropWhile Char.isWhitespace).reverse) =
      a ++ c :: (b.reverse.dropWhile Char.isWhitespace).reverse := by
  rw [List.reverse_append, List.reverse_cons, List.append_assoc, List.dropWhile_append]
  split
  · rename_i h
    rw [List.isEmpty_iff] at h
    rw [h, List.singleton_append, List.dropWhile_cons_of_neg (by simp [hc])]
    simp
  · simp

theorem strip_name {indent x z : List Char} (hi : ∀ c ∈ indent, c.isWhitespace = true) (hx : x ≠ [])
    (hn : ∀ c ∈ x, isNameChar c = true) :
    stripSpaces (indent ++ (x ++ z)) = x ++ (z.reverse.dropWhile Char.isWhitespace).reverse := by
  have h1 : (indent ++ (x ++ z)).dropWhile Char.isWhitespace = x ++ z := by
    rw [List.dropWhile_append_of_pos hi]
    cases x with
    | nil => exact absurd rfl hx
    | cons c x =>
      rw [List.cons_append, List.dropWhile_cons_of_neg]
      rw [isNameChar_space (hn c (by simp))]
      decide
  unfold stripSpaces
  rw [h1]
  obtain ⟨y, c, rfl⟩ : ∃ y c, x = y ++ [c] := ⟨_, _, (List.dropLast_concat_getLast hx).symm⟩
  rw [List.append_assoc, List.singleton_append, rstrip_append (isNameChar_space (hn c (by simp)))]
  simp

/-- If the line starts with an identifier that is followed by ` =` or by a comma, the name is this
identifier. -/
theorem argumentName_assign {indent x tail : List Char} (hi : ∀ c ∈ indent, c.isWhitespace = true)
    (hx : x ≠ []) (hn : ∀ c ∈ x, isNameChar c = true) :
    argumentName (indent ++ (x ++ (' ' :: '=' :: tail))) = x := by
  have hi' : ∀ c ∈ indent, (c != '=') = true := fun c hc => by
    have := hi c hc
    rw [bne_iff_ne]
    rintro rfl
    revert this; decide
  have hx' : ∀ c ∈ x, (c != '=') = true := fun c hc => by simpa using (isNameChar_ne (hn c hc)).1
  have hx'' : ∀ c ∈ x, (c != ',') = true := fun c hc => by simpa using (isNameChar_ne (hn c hc)).2
  unfold argumentName
  rw [List.takeWhile_append_of_pos hi', List.takeWhile_append_of_pos hx']
  have : List.takeWhile (· != '=') (' ' :: '=' :: tail) = [' '] := by
    rw [List.takeWhile_cons_of_pos (by decide), List.takeWhile_cons_of_neg (by decide)]
  rw [this, strip_name hi hx hn]
  have : (List.dropWhile Char.isWhitespace [' '].reverse).reverse = [] := by decide
  rw [this, List.append_nil, List.takeWhile_eq_self_iff]
  exact hx''

theorem argumentName_comma {indent x tail : List Char} (hi : ∀ c ∈ indent, c.isWhitespace = true)
    (hx : x ≠ []) (hn : ∀ c ∈ x, isNameChar c = true) :
    argumentName (indent ++ (x ++ (',' :: tail))) = x := by
  have hi' : ∀ c ∈ indent, (c != '=') = true := fun c hc => by
    have := hi c hc
    rw [bne_iff_ne]
    rintro rfl
    revert this; decide
  have hx' : ∀ c ∈ x, (c != '=') = true := fun c hc => by simpa using (isNameChar_ne (hn c hc)).1
  have hx'' : ∀ c ∈ x, (c != ',') = true := fun c hc => by simpa using (isNameChar_ne (hn c hc)).2
  unfold argumentName
  rw [List.takeWhile_append_of_pos hi', List.takeWhile_append_of_pos hx',
    List.takeWhile_cons_of_pos (by decide), strip_name hi hx hn]
  have := rstrip_append (a := []) (b := tail.takeWhile (· != '=')) (c := ',') (by decide)
  rw [List.nil_append, List.nil_append] at this
  rw [this, List.takeWhile_append_of_pos hx'', List.takeWhile_cons_of_neg (by decide), List.append_nil]

/-- The first name on the left is an identifier, and it is the parameter that is validated. -/
def Site.Named (s : Site) : Prop :=
  s.targets.head? = some s.parameter ∧ s.parameter.toList ≠ [] ∧
    ∀ c ∈ s.parameter.toList, isNameChar c = true

instance (s : Site) : Decidable s.Named := by unfold Site.Named; infer_instance

theorem Site.Named.name {s : Site} (h : s.Named) {indent : List Char} (tail : List Char)
    (hi : ∀ c ∈ indent, c.isWhitespace = true) : argumentName (s.text indent tail) = s.parameter.toList := by
  obtain ⟨h1, h2, h3⟩ := h
  unfold Site.text
  cases ht : s.targets with
  | nil => rw [ht] at h1; cases h1
  | cons x l =>
    rw [ht] at h1
    cases h1
    cases l with
    | nil =>
      have : [',', ' '].intercalate ([s.parameter].map String.toList) = s.parameter.toList := by
        simp [List.intercalate]
      rw [this]
      exact argumentName_assign hi h2 h3
    | cons y l =>
      have : [',', ' '].intercalate ((s.parameter :: y :: l).map String.toList) =
          s.parameter.toList ++ (',' :: (' ' :: [',', ' '].intercalate ((y :: l).map String.toList))) := by
        simp [List.intercalate]
      rw [this, List.append_assoc, List.cons_append]
      exact argumentName_comma hi h2 h3

theorem assessmentSites_named : ∀ s ∈ assessmentSites, s.Named := by decide +kernel
theorem hiddenSites_named : ∀ s ∈ hiddenSites, s.Named := by decide +kernel
theorem chainSites_named : ∀ s ∈ chainSites, s.Named := by decide +kernel
theorem plotSites_named : ∀ s ∈ plotSites, s.Named := by decide +kernel

theorem fillName_prefix (name t : List Char) :
    fillName name (['T', 'h', 'e', ' ', '"', '@', 'a', 'r', 'g', '@', '"'] ++ t) =
      ['T', 'h', 'e', ' ', '"'] ++ name ++ ('"' :: fillName name t) := by
  simp [fillName]

theorem fillName_plain (name : List Char) {t : List Char} (h : '@' ∉ t) : fillName name t = t := by
  induction t with
  | nil => rfl
  | cons c t ih =>
    rw [List.mem_cons, not_or] at h
    rw [fillName, ih h.2]
    intro l h1 h2
    exact h.1 h1.symm

/-- Every message of the validators begins with `The "@arg@"`. Whichever line of the library validates the
rejected argument, the message that the user sees begins with the name of this argument in quotes,
followed by the rest of the message. -/
theorem C126_named {s : Site} (hs : s ∈ validationSites) {indent : List Char}
    (hi : ∀ c ∈ indent, c.isWhitespace = true) (tail t : List Char) :
    validationMessage (['T', 'h', 'e', ' ', '"', '@', 'a', 'r', 'g', '@', '"'] ++ t) (s.text indent tail) =
      ['T', 'h', 'e', ' ', '"'] ++ s.parameter.toList ++ ('"' :: fillName s.parameter.toList t) ∧
    ('@' ∉ t → fillName s.parameter.toList t = t) := by
  have hn : s.Named := by
    simp only [validationSites, List.mem_append] at hs
    rcases hs with ((h | h) | h) | h
    · exact assessmentSites_named s h
    · exact hiddenSites_named s h
    · exact chainSites_named s h
    · exact plotSites_named s h
  unfold validationMessage
  rw [hn.name tail hi]
  exact ⟨fillName_prefix _ _, fillName_plain _⟩

/-- Messages without a place for a name are not changed. -/
theorem C126_unchanged {message : List Char} (h : '@' ∉ message) (line : List Char) :
    validationMessage message line = message :=
  fillName_plain _ h

/-- The lines that create a generator would report the local variable instead of the parameter `seed`;
the message of `create_rng` (`utilities.py:187`) has no place for a name, so it is not changed. -/
theorem C126_seed {s : Site} (hs : s ∈ seedSites) {indent : List Char}
    (hi : ∀ c ∈ indent, c.isWhitespace = true) (tail : List Char) :
    argumentName (s.text indent tail) ≠ s.parameter.toList ∧
    validationMessage "The specified seed is not a valid RNG initializer.".toList (s.text indent tail) =
      "The specified seed is not a valid RNG initializer.".toList := by
  refine ⟨?_, C126_unchanged (by decide +kernel) _⟩
  have h : s.targets = ["rng"] ∧ s.parameter = "seed" := by
    revert s; decide +kernel
  have hn : (⟨s.line, ["rng"], "rng"⟩ : Site).Named := by
    refine ⟨rfl, ?_⟩
    change "rng".toList ≠ [] ∧ ∀ c ∈ "rng".toList, isNameChar c = true
    decide +kernel
  have := hn.name tail hi
  unfold Site.text at this ⊢
  rw [h.1, h.2]
  rw [this]
  change "rng".toList ≠ "seed".toList
  decide +kernel

/-- The line `file_path, file_extension = …` (`markov_chain.py:1974`). -/
example : validationMessage "The \"@arg@\" parameter must be a non-empty string.".toList
    "            file_path, file_extension = f(file_path)".toList =
      "The \"file_path\" parameter must be a non-empty string.".toList := by decide +kernel

end Verif
