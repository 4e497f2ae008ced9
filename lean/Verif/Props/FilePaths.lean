import Verif.Model.FilePaths
import Verif.Lemmas.Validation

/-!
# File paths (C114)
-/

set_option linter.unusedSectionVars false

namespace Verif

variable {K : Type} [Field K] [LinearOrder K]

theorem flatten_splitOn (a : Char) (l : List Char) :
    (((l.splitOn a).drop 1).map (a :: ·)).flatten = l.dropWhile (fun c => decide (c ≠ a)) := by
  by_cases h : a ∈ l
  · obtain ⟨s, t, rfl, hs⟩ := List.append_of_mem h |>.elim fun _ _ => List.eq_append_cons_of_mem h
    have hd : (s ++ a :: t).dropWhile (fun c => decide (c ≠ a)) = a :: t := by
      rw [List.dropWhile_append_of_pos]
      · simp
      · intro x hx
        simp only [decide_eq_true_eq]
        rintro rfl
        exact hs hx
    rw [List.splitOn_append_cons_self_of_not_mem hs, hd]
    have key : ∀ t : List Char, ((t.splitOn a).map (a :: ·)).flatten = a :: t := by
      intro t
      have hne := List.splitOn_ne_nil a t
      have h2 := List.intercalate_splitOn (xs := t) a
      obtain ⟨x, l, hl⟩ := List.exists_cons_of_ne_nil hne
      rw [hl] at h2 ⊢
      rw [← h2]
      clear h2 hl hne
      induction l generalizing x with
      | nil => simp
      | cons y l ih =>
        rw [List.map_cons, List.flatten_cons, ih y, List.intercalate_cons_cons]
        simp
    exact key t
  · have hd : l.dropWhile (fun c => decide (c ≠ a)) = [] := by
      rw [← List.append_nil l, List.dropWhile_append_of_pos, List.dropWhile_nil]
      intro x hx
      simp only [decide_eq_true_eq]
      rintro rfl
      exact h hx
    rw [List.splitOn_eq_singleton h, hd]
    rfl

theorem suffixes_flatten {name : List Char} (h : name.getLast? ≠ some '.') :
    (nameSuffixes name).flatten =
      (name.dropWhile fun c => decide (c = '.')).dropWhile fun c => decide (c ≠ '.') := by
  unfold nameSuffixes
  rw [if_neg h]
  exact flatten_splitOn '.' _

theorem toLower_eq_iff {c d : Char} (hd : d.toNat < 65) : c.toLower = d ↔ c = d := by
  unfold Char.toLower
  split
  · next hu =>
    have h1 : 65 ≤ c.val.toNat := UInt32.le_iff_toNat_le.1 hu.1
    have h2 : c.val.toNat ≤ 90 := UInt32.le_iff_toNat_le.1 hu.2
    constructor
    · intro h
      have h3 := congrArg (fun x : Char => x.val.toNat) h
      simp only [UInt32.toNat_add] at h3
      have h4 : ('a'.val - 'A'.val).toNat = 32 := rfl
      have h5 : d.val.toNat < 65 := hd
      omega
    · rintro rfl
      have h5 : c.val.toNat < 65 := hd
      omega
  · rfl

theorem mem_map_toLower {d : Char} (hd : d.toNat < 65) {l : List Char} :
    d ∈ l.map Char.toLower ↔ d ∈ l := by
  constructor
  · intro h
    obtain ⟨c, hc, h⟩ := List.mem_map.1 h
    rw [toLower_eq_iff hd] at h
    exact h ▸ hc
  · intro h
    exact List.mem_map.2 ⟨d, h, (toLower_eq_iff hd).2 rfl⟩

/-- The four endings, without the dot. -/
def endings : List (List Char) := ["csv".toList, "json".toList, "xml".toList, "txt".toList]

theorem ending_clean {e : List Char} (he : e.map Char.toLower ∈ endings) :
    '.' ∉ e ∧ '/' ∉ e ∧ e ≠ [] := by
  rw [← mem_map_toLower (d := '.') (by decide), ← mem_map_toLower (d := '/') (by decide)]
  have h0 : ∀ x ∈ endings, '.' ∉ x ∧ '/' ∉ x ∧ x ≠ [] := by decide
  obtain ⟨h1, h2, h3⟩ := h0 _ he
  exact ⟨h1, h2, fun h => h3 (by rw [h]; rfl)⟩

theorem accepted_iff_ending (x : List Char) :
    '.' :: x ∈ acceptedExtensions ↔ x ∈ endings := by
  have e : acceptedExtensions = endings.map ('.' :: ·) := by decide +kernel
  rw [e]
  simp

/-- C114. The extension of a path is accepted exactly if the name of the file is, after leading dots, a
part without dots, a dot, and one of the four endings in upper or lower case. -/
theorem C114_accepted_iff (s : List Char) : fileExtension s ∈ acceptedExtensions ↔
    ∃ (k : ℕ) (stem e : List Char), pathName s = List.replicate k '.' ++ (stem ++ '.' :: e) ∧ stem ≠ [] ∧
      '.' ∉ stem ∧ e.map Char.toLower ∈ endings := by
  obtain ⟨name, hname⟩ : ∃ name, name = pathName s := ⟨_, rfl⟩
  unfold fileExtension
  rw [← hname]
  by_cases hlast : name.getLast? = some '.'
  · constructor
    · intro h
      unfold nameSuffixes at h
      rw [if_pos hlast] at h
      exact absurd h (by decide +kernel)
    · rintro ⟨k, stem, e, rfl, -, -, he⟩
      exfalso
      obtain ⟨h1, -, h2⟩ := ending_clean he
      rw [List.getLast?_append_of_ne_nil _ (by simp), List.getLast?_append_of_ne_nil _ (by simp),
        List.getLast?_cons_of_ne_nil h2] at hlast
      exact h1 (List.mem_of_getLast? hlast)
  · rw [suffixes_flatten hlast]
    constructor
    · intro h
      obtain ⟨r, hr⟩ : ∃ r, r = name.dropWhile fun c => decide (c = '.') := ⟨_, rfl⟩
      rw [← hr] at h
      obtain ⟨x, hx⟩ : ∃ x, r.dropWhile (fun c => decide (c ≠ '.')) = '.' :: x := by
        cases hd : r.dropWhile (fun c => decide (c ≠ '.')) with
        | nil =>
          rw [hd] at h
          exact absurd h (by decide +kernel)
        | cons a t =>
          have := List.head_dropWhile_not (fun c => decide (c ≠ '.')) (l := r) (by rw [hd]; simp)
          simp only [hd, List.head_cons, decide_eq_false_iff_not, not_not] at this
          exact ⟨t, by rw [this]⟩
      rw [hx, List.map_cons] at h
      have hdot : Char.toLower '.' = '.' := (toLower_eq_iff (by decide)).2 rfl
      rw [hdot, accepted_iff_ending] at h
      refine ⟨(name.takeWhile fun c => decide (c = '.')).length, r.takeWhile fun c => decide (c ≠ '.'), x, ?_,
        ?_, ?_, h⟩
      · have h1 : name = name.takeWhile (fun c => decide (c = '.')) ++ r := by
          rw [hr]; exact (List.takeWhile_append_dropWhile).symm
        have h2 : r = r.takeWhile (fun c => decide (c ≠ '.')) ++ '.' :: x := by
          rw [← hx]; exact (List.takeWhile_append_dropWhile).symm
        have h3 : name.takeWhile (fun c => decide (c = '.')) =
            List.replicate (name.takeWhile fun c => decide (c = '.')).length '.' := by
          refine List.eq_replicate_iff.2 ⟨rfl, fun b hb => ?_⟩
          have := List.all_eq_true.1 List.all_takeWhile _ hb
          simpa using this
        rw [← h3, ← h2]
        exact h1
      · intro h0
        have h2 : r = '.' :: x := by
          have h3 := List.takeWhile_append_dropWhile (p := fun c => decide (c ≠ '.')) (l := r)
          rw [h0, List.nil_append, hx] at h3
          exact h3.symm
        have := List.head_dropWhile_not (fun c => decide (c = '.')) (l := name) (by rw [← hr, h2]; simp)
        simp only [← hr, h2, List.head_cons] at this
        simp at this
      · intro hm
        have := List.all_eq_true.1 List.all_takeWhile _ hm
        simp at this
    · rintro ⟨k, stem, e, rfl, h1, h2, he⟩
      have e1 : (List.replicate k '.' ++ (stem ++ '.' :: e)).dropWhile (fun c => decide (c = '.')) =
          stem ++ '.' :: e := by
        rw [List.dropWhile_append_of_pos (by intro a ha; simp [List.eq_of_mem_replicate ha])]
        cases stem with
        | nil => exact absurd rfl h1
        | cons a t =>
          rw [List.cons_append, List.dropWhile_cons_of_neg]
          simp only [decide_eq_true_eq]
          rintro rfl
          exact h2 List.mem_cons_self
      have e2 : (stem ++ '.' :: e).dropWhile (fun c => decide (c ≠ '.')) = '.' :: e := by
        rw [List.dropWhile_append_of_pos]
        · simp
        · intro a ha
          simp only [decide_eq_true_eq]
          rintro rfl
          exact h2 ha
      rw [e1, e2, List.map_cons, (toLower_eq_iff (c := '.') (d := '.') (by decide)).2 rfl,
        accepted_iff_ending]
      exact he

theorem splitOn_getLastD {dir name : List Char} (h : '/' ∉ name) (h1 : name ≠ []) (h2 : name ≠ ['.'])
    (hd : dir = [] ∨ ∃ d, dir = d ++ ['/']) : pathName (dir ++ name) = name := by
  unfold pathName pathParts
  have hf : [name].filter (fun x => !decide (x = [] ∨ x = ['.'])) = [name] := by simp [h1, h2]
  rcases hd with rfl | ⟨d, rfl⟩
  · rw [List.nil_append, List.splitOn_eq_singleton h, hf]
    rfl
  · rw [List.append_assoc, List.singleton_append, List.splitOn_append_cons_self,
      List.splitOn_eq_singleton h, List.filter_append, hf]
    simp

/-- C114 (partial). In every directory, a name of the form `stem.ending` with one of the four endings in
upper or lower case is accepted, and the ending in lower case decides the format, if the stem has no
dot. The general statement fails (`C114_inner_dot`). -/
theorem C114_simple_names_partial {dir stem e : List Char} (hd : dir = [] ∨ ∃ d, dir = d ++ ['/'])
    (h1 : stem ≠ []) (h2 : '.' ∉ stem) (h3 : '/' ∉ stem) (he : e.map Char.toLower ∈ endings) :
    fileExtension (dir ++ (stem ++ '.' :: e)) = '.' :: e.map Char.toLower ∧
      fileExtension (dir ++ (stem ++ '.' :: e)) ∈ acceptedExtensions := by
  obtain ⟨c1, c2, c3⟩ := ending_clean he
  have hs : pathName (dir ++ (stem ++ '.' :: e)) = stem ++ '.' :: e := by
    refine splitOn_getLastD ?_ (by simp) ?_ hd
    · simp [h3, c2]
    · intro h
      have := congrArg List.length h
      simp at this
      exact h1 (List.length_eq_zero_iff.1 (by omega))
  refine ⟨?_, (C114_accepted_iff _).2 ⟨0, stem, e, by rw [hs]; rfl, h1, h2, he⟩⟩
  unfold fileExtension
  rw [hs, suffixes_flatten]
  · have e1 : (stem ++ '.' :: e).dropWhile (fun c => decide (c = '.')) = stem ++ '.' :: e := by
      cases stem with
      | nil => exact absurd rfl h1
      | cons a t =>
        rw [List.cons_append, List.dropWhile_cons_of_neg]
        simp only [decide_eq_true_eq]
        rintro rfl
        exact h2 List.mem_cons_self
    have e2 : (stem ++ '.' :: e).dropWhile (fun c => decide (c ≠ '.')) = '.' :: e := by
      rw [List.dropWhile_append_of_pos]
      · simp
      · intro a ha
        simp only [decide_eq_true_eq]
        rintro rfl
        exact h2 ha
    rw [e1, e2, List.map_cons, (toLower_eq_iff (c := '.') (d := '.') (by decide)).2 rfl]
  · rw [List.getLast?_append_of_ne_nil _ (by simp), List.getLast?_cons_of_ne_nil c3]
    exact fun h => c1 (List.mem_of_getLast? h)

/-- C114 fails: a name with a dot inside its stem is rejected, whatever its ending. -/
theorem C114_inner_dot {dir a b e : List Char} (hd : dir = [] ∨ ∃ d, dir = d ++ ['/']) (ha : '.' ∉ a)
    (ha0 : a ≠ []) (has : '/' ∉ a) (hb : '/' ∉ b) (he : '/' ∉ e) (fs : FileSystem) (write : Bool) :
    validateFilePath fs (.str (String.ofList (dir ++ (a ++ '.' :: (b ++ '.' :: e)))) : PyVal K) write =
      (.error .valueError, fs) ∨
    validateFilePath fs (.str (String.ofList (dir ++ (a ++ '.' :: (b ++ '.' :: e)))) : PyVal K) write =
      (.error .typeError, fs) := by
  have hs : pathName (dir ++ (a ++ '.' :: (b ++ '.' :: e))) = a ++ '.' :: (b ++ '.' :: e) := by
    refine splitOn_getLastD ?_ (by simp) ?_ hd
    · simp [has, hb, he]
    · intro h
      have := congrArg List.length h
      simp at this
      omega
  have hn : fileExtension (dir ++ (a ++ '.' :: (b ++ '.' :: e))) ∉ acceptedExtensions := by
    rw [C114_accepted_iff, hs]
    rintro ⟨k, stem, x, h, h1, h2, hx⟩
    have hc := congrArg (List.count '.') h
    have e0 := (ending_clean hx).1
    cases k with
    | zero =>
      simp [List.count_append, List.count_eq_zero_of_not_mem h2, List.count_eq_zero_of_not_mem e0] at hc
      omega
    | succ k =>
      cases a with
      | nil => exact ha0 rfl
      | cons c a =>
        rw [List.replicate_succ, List.cons_append, List.cons_append] at h
        exact ha (by rw [(List.cons.inj h).1]; exact List.mem_cons_self)
  unfold validateFilePath
  simp only [String.toList_ofList]
  split_ifs with h
  · exact Or.inr rfl
  · exact Or.inl rfl

/-! ## The file system -/

/-- C114. A path to be read is accepted exactly if it is the path of a file with an accepted extension
that can be read and is not empty; the validation leaves the files as they are. -/
theorem C114_read (fs : FileSystem) (v : PyVal K) :
    (validateFilePath fs v false).2 = fs ∧
    ∀ x, (validateFilePath fs v false).1 = .ok x ↔ ∃ s, v = .str s ∧ nonBlank s = true ∧
      x = fileExtension s.toList ∧ x ∈ acceptedExtensions ∧ fs.isFile s.toList ∧
      ∃ c t, fs.text s.toList = some (c :: t) := by
  cases v with
  | str s =>
    unfold validateFilePath
    simp only [PyVal.str.injEq, exists_eq_left']
    by_cases h1 : nonBlank s = false
    · rw [if_pos h1]
      exact ⟨rfl, fun x => ⟨(fun h => by cases h), fun h => absurd h.1 (by simp [h1])⟩⟩
    · rw [if_neg h1]
      by_cases h2 : fileExtension s.toList ∉ acceptedExtensions
      · rw [if_pos h2]
        refine ⟨rfl, fun x => ⟨(fun h => by cases h), fun h => ?_⟩⟩
        exact absurd (h.2.1 ▸ h.2.2.1) h2
      · rw [if_neg h2, if_neg (by simp)]
        refine ⟨rfl, fun x => ?_⟩
        rw [not_not] at h2
        simp only [Bool.not_eq_false] at h1
        unfold checkRead
        by_cases h3 : fs.isFile s.toList
        · rw [if_neg (not_not.2 h3)]
          cases ht : fs.text s.toList with
          | none => simp
          | some l =>
            cases l with
            | nil => simp
            | cons c t =>
              simp only [R.pure_ok]
              constructor
              · rintro rfl
                exact ⟨h1, rfl, h2, h3, c, t, rfl⟩
              · rintro ⟨-, rfl, -⟩
                rfl
        · rw [if_pos h3]
          simp [h3]
  | _ => exact ⟨rfl, fun x => ⟨(fun h => by cases h), fun ⟨s, h, _⟩ => by cases h⟩⟩

/-- C114. The directory whose existence is checked is the part before the last slash; for a file directly
below the root it is the root. -/
theorem C114_directory {d name : List Char} (hn : '/' ∉ name) :
    (d ≠ [] → d.getLast? ≠ some '/' → pathDirectory (d ++ '/' :: name) = d) ∧
    pathDirectory ('/' :: name) = ['/'] ∧ pathDirectory name = [] := by
  have hk : ∀ l : List Char, (name.reverse ++ l).dropWhile (fun c => decide (c ≠ '/')) =
      l.dropWhile (fun c => decide (c ≠ '/')) := fun l => by
    rw [List.dropWhile_append_of_pos]
    intro a ha
    simp only [decide_eq_true_eq]
    rintro rfl
    exact hn (List.mem_reverse.1 ha)
  refine ⟨fun hd hl => ?_, ?_, ?_⟩
  · obtain ⟨e, a, rfl⟩ := List.eq_nil_or_concat d |>.resolve_left hd
    have ha : a ≠ '/' := by
      rintro rfl
      simp at hl
    have e1 : (e.concat a ++ '/' :: name).reverse.dropWhile (fun c => decide (c ≠ '/')) =
        '/' :: a :: e.reverse := by
      simp only [List.reverse_append, List.reverse_cons, List.append_assoc, List.concat_eq_append]
      rw [hk]
      simp
    unfold pathDirectory
    rw [e1, if_neg (by simp [ha])]
    simp [ha]
  · have e1 : ('/' :: name).reverse.dropWhile (fun c => decide (c ≠ '/')) = ['/'] := by
      rw [List.reverse_cons, hk]
      simp
    unfold pathDirectory
    rw [e1]
    simp
  · have e1 : name.reverse.dropWhile (fun c => decide (c ≠ '/')) = [] := by
      have := hk []
      simpa using this
    unfold pathDirectory
    rw [e1]
    simp

example : pathDirectory "/tmp/a/b.csv".toList = "/tmp/a".toList ∧ pathDirectory "/b.csv".toList = "/".toList := by
  decide +kernel

/-- C114. A path to be written is accepted exactly if its extension is, it can be opened for writing,
and its directory exists when the path is absolute. The validation then has emptied this file, and
changed no other; if the path is rejected nothing is changed. -/
theorem C114_write (fs : FileSystem) (v : PyVal K) :
    (∀ x, (validateFilePath fs v true).1 = .ok x ↔ ∃ s, v = .str s ∧ nonBlank s = true ∧
      x = fileExtension s.toList ∧ x ∈ acceptedExtensions ∧ fs.canWrite s.toList ∧
      (s.toList.head? = some '/' → fs.isDir (pathDirectory s.toList))) ∧
    (∀ x s, (validateFilePath fs v true).1 = .ok x → v = .str s →
      (validateFilePath fs v true).2.text s.toList = some [] ∧
      ∀ t, t ≠ s.toList → (validateFilePath fs v true).2.text t = fs.text t) ∧
    (∀ err, (validateFilePath fs v true).1 = .error err → (validateFilePath fs v true).2 = fs) := by
  cases v with
  | str s =>
    unfold validateFilePath
    simp only [PyVal.str.injEq, exists_eq_left']
    by_cases h1 : nonBlank s = false
    · rw [if_pos h1]
      exact ⟨fun x => ⟨(fun h => by cases h), fun h => absurd h.1 (by simp [h1])⟩,
        (fun x s h => by cases h), fun _ _ => rfl⟩
    · rw [if_neg h1]
      by_cases h2 : fileExtension s.toList ∉ acceptedExtensions
      · rw [if_pos h2]
        refine ⟨fun x => ⟨(fun h => by cases h), fun h => ?_⟩, (fun x s h => by cases h), fun _ _ => rfl⟩
        exact absurd (h.2.1 ▸ h.2.2.1) h2
      · simp only [if_neg h2, if_true]
        rw [not_not] at h2
        simp only [Bool.not_eq_false] at h1
        unfold checkWrite
        by_cases h3 : ¬ fs.isDir (pathDirectory s.toList) ∧ s.toList.head? = some '/'
        · rw [if_pos h3]
          refine ⟨fun x => ⟨(fun h => by cases h), fun h => ?_⟩, (fun x s h => by cases h), fun _ _ => rfl⟩
          exact absurd (h.2.2.2.2 h3.2) h3.1
        · rw [if_neg h3]
          by_cases h4 : fs.canWrite s.toList
          · rw [if_neg (not_not.2 h4)]
            refine ⟨fun x => ?_, ?_, fun err h => by cases h⟩
            · simp only [R.pure_ok]
              constructor
              · rintro rfl
                exact ⟨h1, rfl, h2, h4, fun h => by_contra fun h' => h3 ⟨h', h⟩⟩
              · rintro ⟨-, rfl, -⟩
                rfl
            · rintro x _ - rfl
              exact ⟨if_pos rfl, fun t ht => if_neg ht⟩
          · rw [if_pos h4]
            refine ⟨fun x => ⟨(fun h => by cases h), fun h => absurd h.2.2.2.1 h4⟩, (fun x s h => by cases h),
              fun _ _ => rfl⟩
  | _ =>
    refine ⟨fun x => ⟨(fun h => by cases h), fun ⟨s, h, _⟩ => by cases h⟩, (fun x s h => by cases h),
      fun _ _ => rfl⟩

/-- Accepted and rejected names. -/
example : fileExtension "data/v1.0/Chain.CSV".toList = ".csv".toList ∧
    fileExtension ".hidden.json".toList = ".json".toList ∧
    fileExtension "chain.v2.csv".toList = ".v2.csv".toList ∧
    fileExtension ".csv".toList = [] ∧ fileExtension "chain.csv.".toList = [] := by decide +kernel

end Verif
