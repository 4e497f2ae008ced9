import Verif.Props.Dictionary
import Verif.Lemmas.Text

/-!
# Property C63: files
-/

set_option linter.unusedSectionVars false

namespace Verif

variable {K : Type} [Field K] [LinearOrder K] [IsStrictOrderedRing K]

theorem nonBlank_ne {s : String} (h : nonBlank s = true) : s ≠ "" := by
  rintro rfl
  exact absurd h (by decide)

theorem nonBlank_isEmpty {s : String} (h : nonBlank s = true) : s.isEmpty = false := by
  rw [String.isEmpty_eq_false_iff]
  exact nonBlank_ne h

/-! ## The items of accepted objects -/

theorem mc_item {c : MC K} (h : c.Accepted) {x : List String × K} (hx : x ∈ mcItems c) :
    ∃ a ∈ c.states, ∃ b ∈ c.states, ∃ i j, x = ([a, b], c.p i j) := by
  obtain ⟨n, p, states⟩ := c
  obtain ⟨-, -, -, h4, -⟩ := h
  change states.length = n at h4
  subst h4
  obtain ⟨i, j, rfl⟩ := (mem_mcItems states p).1 hx
  exact ⟨_, List.getElem_mem _, _, List.getElem_mem _, i, j, rfl⟩

theorem mc_items_ne_nil {c : MC K} (h : c.Accepted) : mcItems c ≠ [] := by
  obtain ⟨n, p, states⟩ := c
  obtain ⟨h1, -, -, h4, -⟩ := h
  change states.length = n at h4
  subst h4
  have h1' : 2 ≤ states.length := h1
  intro h0
  have := (mem_mcItems states p).2 ⟨⟨0, by omega⟩, ⟨0, by omega⟩, rfl⟩
  rw [h0] at this
  exact List.not_mem_nil this

theorem mc_items_nodup {c : MC K} (h : c.Accepted) : ((mcItems c).map Prod.fst).Nodup := by
  obtain ⟨n, p, states⟩ := c
  obtain ⟨-, -, -, h4, h5, -⟩ := h
  change states.length = n at h4
  subst h4
  exact mcItems_nodup states p h5

theorem hmm_item {m : HMM K} (h : m.Accepted) {x : List String × K} (hx : x ∈ hmmItems m) :
    ∃ a ∈ m.states, (∃ b ∈ m.states, ∃ i j, x = (["P", a, b], m.p i j)) ∨
      ∃ b ∈ m.symbols, ∃ i j, x = (["E", a, b], m.e i j) := by
  obtain ⟨n, k, p, e, states, symbols⟩ := m
  obtain ⟨-, -, -, -, -, -, ⟨h5, -, -⟩, ⟨h7, -, -⟩, -⟩ := h
  change states.length = n at h5
  change symbols.length = k at h7
  subst h5 h7
  rcases (mem_hmmItems states symbols p e).1 hx with ⟨i, j, rfl⟩ | ⟨i, j, rfl⟩
  · exact ⟨_, List.getElem_mem _, Or.inl ⟨_, List.getElem_mem _, i, j, rfl⟩⟩
  · exact ⟨_, List.getElem_mem _, Or.inr ⟨_, List.getElem_mem _, i, j, rfl⟩⟩

theorem hmm_items_ne_nil {m : HMM K} (h : m.Accepted) : hmmItems m ≠ [] := by
  obtain ⟨n, k, p, e, states, symbols⟩ := m
  obtain ⟨h1, -, -, -, -, -, ⟨h5, -, -⟩, ⟨h7, -, -⟩, -⟩ := h
  change states.length = n at h5
  change symbols.length = k at h7
  subst h5 h7
  have h1' : 2 ≤ states.length := h1
  intro h0
  have := (mem_hmmItems states symbols p e).2 (Or.inl ⟨⟨0, by omega⟩, ⟨0, by omega⟩, rfl⟩)
  rw [h0] at this
  exact List.not_mem_nil this

theorem hmm_items_nodup {m : HMM K} (h : m.Accepted) : ((hmmItems m).map Prod.fst).Nodup := by
  obtain ⟨n, k, p, e, states, symbols⟩ := m
  obtain ⟨-, -, -, -, -, -, ⟨h5, h6, -⟩, ⟨h7, h8, -⟩, -⟩ := h
  change states.length = n at h5
  change symbols.length = k at h7
  subst h5 h7
  exact hmmItems_nodup states symbols p e h6 h8

theorem mcDict_eq {c : MC K} (h : c.Accepted) : mcToDictionary c = mcItems c :=
  mcToDictionary_eq c h.2.2.2.1 h.2.2.2.2.1

theorem hmmDict_eq {m : HMM K} (h : m.Accepted) : hmmToDictionary m = hmmItems m :=
  hmmToDictionary_eq m h.2.2.2.2.2.2.1.1 h.2.2.2.2.2.2.2.1.1 h.2.2.2.2.2.2.1.2.1
    h.2.2.2.2.2.2.2.1.2.1

/-! ## Text files -/

theorem mc_readable {c : MC K} (h : c.Accepted) {fmt : K → String} {parse : String → Option K}
    (hl : ∀ s ∈ c.states, Solid s) (hf : ∀ i j, Printed fmt parse (c.p i j)) :
    ∀ x ∈ mcItems c, Readable true fmt parse x := by
  intro x hx
  obtain ⟨a, ha, b, hb, i, j, rfl⟩ := mc_item h hx
  have hn := h.2.2.2.2.2
  refine ⟨rfl, fun e => absurd e (by decide), ?_, (hf i j).2.2, (hf i j).2.1, (hf i j).1⟩
  intro s hs
  have hs' : s ∈ [a, b] := hs
  simp only [List.mem_cons, List.not_mem_nil, or_false] at hs'
  rcases hs' with rfl | rfl
  · exact ⟨hl _ ha, nonBlank_ne (hn _ ha)⟩
  · exact ⟨hl _ hb, nonBlank_ne (hn _ hb)⟩

/-- C63 (partial: labels without whitespace). A chain saved as a text file is read back. -/
theorem C63_txt_partial (c : MC K) (h : c.Accepted) (fmt : K → String) (parse : String → Option K)
    (hl : ∀ s ∈ c.states, Solid s) (hf : ∀ i j, Printed fmt parse (c.p i j)) :
    ∃ f, mcToFile fmt ".txt" c = .ok f ∧ mcFromFile parse f = .ok c := by
  refine ⟨.txt (writeTxt fmt (mcItems c)), ?_, ?_⟩
  · rw [← mcDict_eq h]
    rfl
  · refine (if_neg ?_).trans ?_
    · rw [List.isEmpty_iff]
      exact writeTxt_ne_nil (mc_items_ne_nil h)
    · rw [readTxt_writeTxt (mc_readable h hl hf) (mc_items_nodup h), R.ok_bind]
      exact chainOfDict_items c h

/-- C63 (partial: labels without whitespace) for hidden Markov models. -/
theorem C63_hmm_txt_partial (m : HMM K) (h : m.Accepted) (fmt : K → String)
    (parse : String → Option K) (hl : ∀ s ∈ m.states, Solid s) (hy : ∀ s ∈ m.symbols, Solid s)
    (hp : ∀ i j, Printed fmt parse (m.p i j)) (he : ∀ i j, Printed fmt parse (m.e i j)) :
    ∃ f, hmmToFile fmt ".txt" m = .ok f ∧ hmmFromFile parse f = .ok m := by
  have hr : ∀ x ∈ hmmItems m, Readable false fmt parse x := by
    intro x hx
    have hn := h.2.2.2.2.2.2.1.2.2
    have hn' := h.2.2.2.2.2.2.2.1.2.2
    obtain ⟨a, ha, ⟨b, hb, i, j, rfl⟩ | ⟨b, hb, i, j, rfl⟩⟩ := hmm_item h hx
    · refine ⟨rfl, fun _ => Or.inr rfl, ?_, (hp i j).2.2, (hp i j).2.1, (hp i j).1⟩
      intro s hs
      have hs' : s ∈ ["P", a, b] := hs
      simp only [List.mem_cons, List.not_mem_nil, or_false] at hs'
      rcases hs' with rfl | rfl | rfl
      · exact ⟨by unfold Solid; decide, by decide⟩
      · exact ⟨hl _ ha, nonBlank_ne (hn _ ha)⟩
      · exact ⟨hl _ hb, nonBlank_ne (hn _ hb)⟩
    · refine ⟨rfl, fun _ => Or.inl rfl, ?_, (he i j).2.2, (he i j).2.1, (he i j).1⟩
      intro s hs
      have hs' : s ∈ ["E", a, b] := hs
      simp only [List.mem_cons, List.not_mem_nil, or_false] at hs'
      rcases hs' with rfl | rfl | rfl
      · exact ⟨by unfold Solid; decide, by decide⟩
      · exact ⟨hl _ ha, nonBlank_ne (hn _ ha)⟩
      · exact ⟨hy _ hb, nonBlank_ne (hn' _ hb)⟩
  refine ⟨.txt (writeTxt fmt (hmmItems m)), ?_, ?_⟩
  · rw [← hmmDict_eq h]
    rfl
  · refine (if_neg ?_).trans ?_
    · rw [List.isEmpty_iff]
      exact writeTxt_ne_nil (hmm_items_ne_nil h)
    · rw [readTxt_writeTxt hr (hmm_items_nodup h), R.ok_bind]
      exact modelOfDict_items m h

/-! ## JSON files -/

theorem mapM_map_ok {α β : Type} {f : α → β} {g : β → R α} {l : List α}
    (h : ∀ x ∈ l, g (f x) = .ok x) : (l.map f).mapM g = .ok l := by
  rw [mapM_R_eq_ok]
  induction l with
  | nil => exact List.Forall₂.nil
  | cons x l ih =>
    exact List.Forall₂.cons (h x List.mem_cons_self) (ih fun y hy => h y (List.mem_cons_of_mem _ hy))

theorem jsonString_ok {s : String} (h : s.isEmpty = false) :
    jsonString (some (.str s : PyVal K)) = .ok s := by
  unfold jsonString
  simp only [h, Bool.false_eq_true, if_false]
  rfl

theorem readJson_mc (a b : String) (v : K) (ha : a.isEmpty = false) (hb : b.isEmpty = false) :
    readJsonObject true [("state_from", .str a), ("state_to", .str b),
      ("probability", .float (.fin v))] = .ok ([a, b], v) := by
  unfold readJsonObject
  have e1 : sameKeys true ([("state_from", (.str a : PyVal K)), ("state_to", .str b),
      ("probability", .float (.fin v))].map Prod.fst) = true := by rfl
  rw [if_neg (not_not.2 e1)]
  have e2 : ((attributeNames true).mapM fun k => jsonString
      (([("state_from", (.str a : PyVal K)), ("state_to", .str b),
      ("probability", .float (.fin v))]).lookup k)) = .ok [a, b] := by
    rw [mapM_R_eq_ok]
    exact List.Forall₂.cons (jsonString_ok ha) (List.Forall₂.cons (jsonString_ok hb) List.Forall₂.nil)
  rw [e2, R.ok_bind, if_neg (fun h => h.1 rfl)]
  rfl

theorem readJson_hmm (r a b : String) (v : K) (hr : r = "E" ∨ r = "P") (ha : a.isEmpty = false)
    (hb : b.isEmpty = false) :
    readJsonObject false [("reference", .str r), ("element_from", .str a), ("element_to", .str b),
      ("probability", .float (.fin v))] = .ok ([r, a, b], v) := by
  unfold readJsonObject
  have e1 : sameKeys false ([("reference", (.str r : PyVal K)), ("element_from", .str a),
      ("element_to", .str b), ("probability", .float (.fin v))].map Prod.fst) = true := by rfl
  rw [if_neg (not_not.2 e1)]
  have hr' : r.isEmpty = false := by rcases hr with rfl | rfl <;> rfl
  have e2 : ((attributeNames false).mapM fun k => jsonString
      (([("reference", (.str r : PyVal K)), ("element_from", .str a), ("element_to", .str b),
      ("probability", .float (.fin v))]).lookup k)) = .ok [r, a, b] := by
    rw [mapM_R_eq_ok]
    exact List.Forall₂.cons (jsonString_ok hr') (List.Forall₂.cons (jsonString_ok ha)
      (List.Forall₂.cons (jsonString_ok hb) List.Forall₂.nil))
  rw [e2, R.ok_bind, if_neg]
  · rfl
  · rintro ⟨-, h1, h2⟩
    rcases hr with rfl | rfl
    · exact h1 rfl
    · exact h2 rfl

/-- C63. A chain saved as a JSON file is read back, whatever its labels. -/
theorem C63_json (c : MC K) (h : c.Accepted) (fmt : K → String) (parse : String → Option K) :
    ∃ f, mcToFile fmt ".json" c = .ok f ∧ mcFromFile parse f = .ok c := by
  refine ⟨.json (writeJson true (mcItems c)), ?_, ?_⟩
  · rw [← mcDict_eq h]
    rfl
  · have e : readJson true (writeJson true (mcItems c)) = .ok (mcItems c) := by
      unfold readJson writeJson
      rw [mapM_map_ok, R.ok_bind, dictOf_nodup _ (mc_items_nodup h)]
      · rfl
      · intro x hx
        obtain ⟨a, ha, b, hb, i, j, rfl⟩ := mc_item h hx
        exact readJson_mc a b _ (nonBlank_isEmpty (h.2.2.2.2.2 _ ha))
          (nonBlank_isEmpty (h.2.2.2.2.2 _ hb))
    change (readJson true (writeJson true (mcItems c)) >>= fun d => chainOfDict d) = _
    rw [e, R.ok_bind]
    exact chainOfDict_items c h

/-- C63 for hidden Markov models and JSON files. -/
theorem C63_hmm_json (m : HMM K) (h : m.Accepted) (fmt : K → String) (parse : String → Option K) :
    ∃ f, hmmToFile fmt ".json" m = .ok f ∧ hmmFromFile parse f = .ok m := by
  refine ⟨.json (writeJson false (hmmItems m)), ?_, ?_⟩
  · rw [← hmmDict_eq h]
    rfl
  · have e : readJson false (writeJson false (hmmItems m)) = .ok (hmmItems m) := by
      unfold readJson writeJson
      rw [mapM_map_ok, R.ok_bind, dictOf_nodup _ (hmm_items_nodup h)]
      · rfl
      · intro x hx
        have hn := h.2.2.2.2.2.2.1.2.2
        have hn' := h.2.2.2.2.2.2.2.1.2.2
        obtain ⟨a, ha, ⟨b, hb, i, j, rfl⟩ | ⟨b, hb, i, j, rfl⟩⟩ := hmm_item h hx
        · exact readJson_hmm "P" a b _ (Or.inr rfl) (nonBlank_isEmpty (hn _ ha))
            (nonBlank_isEmpty (hn _ hb))
        · exact readJson_hmm "E" a b _ (Or.inl rfl) (nonBlank_isEmpty (hn _ ha))
            (nonBlank_isEmpty (hn' _ hb))
    change (readJson false (writeJson false (hmmItems m)) >>= fun d => modelOfDict d) = _
    rw [e, R.ok_bind]
    exact modelOfDict_items m h

/-! ## XML files -/

theorem dropWhile_trim (l : List Char) (h : ∀ ch, l.head? = some ch → pyIsSpace ch = false) :
    l.dropWhile pyIsSpace = l := by
  cases l with
  | nil => rfl
  | cons c l =>
    rw [List.dropWhile_cons, h c rfl]
    rfl

theorem pyStrip_trimmed {s : String} (h : Trimmed s) : pyStrip s = s := by
  unfold pyStrip
  rw [dropWhile_trim _ h.1, dropWhile_trim, List.reverse_reverse, String.ofList_toList]
  rw [List.head?_reverse]
  exact h.2

theorem Solid.trimmed {s : String} (h : Solid s) : Trimmed s :=
  ⟨fun ch hc => h ch (List.mem_of_mem_head? (by rw [hc]; rfl)),
    fun ch hc => h ch (List.mem_of_mem_getLast? (by rw [hc]; rfl))⟩

theorem readXml_mc (fmt : K → String) (parse : String → Option K) (a b : String) (v : K)
    (ha : a.isEmpty = false) (hb : b.isEmpty = false) (ta : Trimmed a) (tb : Trimmed b)
    (hv : Printed fmt parse v) :
    readXmlElement true parse [("state_from", a), ("state_to", b), ("probability", fmt v)] =
      .ok ([a, b], v) := by
  have hv' : pyStrip (fmt v) = fmt v := pyStrip_trimmed hv.2.2.trimmed
  have e3 : (fmt v).isEmpty = false := String.isEmpty_eq_false_iff.2 hv.2.1
  unfold readXmlElement
  have e1 : sameKeys true ([("state_from", a), ("state_to", b), ("probability", fmt v)].map Prod.fst) =
    true := by rfl
  have e2 : ([("state_from", a), ("state_to", b), ("probability", fmt v)].any
      fun x => (pyStrip x.2).isEmpty) = false := by
    simp only [List.any_cons, List.any_nil, pyStrip_trimmed ta, pyStrip_trimmed tb, hv', ha, hb, e3]
    rfl
  have e4 : ((attributeNames true).map fun k => pyStrip
      (([("state_from", a), ("state_to", b), ("probability", fmt v)].lookup k).getD "")) = [a, b] := by
    change [pyStrip a, pyStrip b] = _
    rw [pyStrip_trimmed ta, pyStrip_trimmed tb]
  have e5 : pyStrip (([("state_from", a), ("state_to", b), ("probability", fmt v)].lookup
      "probability").getD "") = fmt v := hv'
  rw [if_neg (not_not.2 e1), if_neg (by rw [e2]; exact Bool.false_ne_true)]
  simp only [e4, e5, hv.1]
  exact if_neg (fun h => h.1 trivial)

theorem readXml_hmm (fmt : K → String) (parse : String → Option K) (r a b : String) (v : K)
    (hr : r = "E" ∨ r = "P")
    (ha : a.isEmpty = false) (hb : b.isEmpty = false) (ta : Trimmed a) (tb : Trimmed b)
    (hv : Printed fmt parse v) :
    readXmlElement false parse [("reference", r), ("element_from", a), ("element_to", b),
      ("probability", fmt v)] = .ok ([r, a, b], v) := by
  have hv' : pyStrip (fmt v) = fmt v := pyStrip_trimmed hv.2.2.trimmed
  have e3 : (fmt v).isEmpty = false := String.isEmpty_eq_false_iff.2 hv.2.1
  have tr : Trimmed r := by
    refine Solid.trimmed ?_
    unfold Solid
    rcases hr with rfl | rfl <;> decide
  have hr' : r.isEmpty = false := by rcases hr with rfl | rfl <;> rfl
  unfold readXmlElement
  have e1 : sameKeys false ([("reference", r), ("element_from", a), ("element_to", b),
      ("probability", fmt v)].map Prod.fst) = true := by rfl
  have e2 : ([("reference", r), ("element_from", a), ("element_to", b), ("probability", fmt v)].any
      fun x => (pyStrip x.2).isEmpty) = false := by
    simp only [List.any_cons, List.any_nil, pyStrip_trimmed tr, pyStrip_trimmed ta,
      pyStrip_trimmed tb, hv', ha, hb, e3, hr']
    rfl
  have e4 : ((attributeNames false).map fun k => pyStrip
      (([("reference", r), ("element_from", a), ("element_to", b),
        ("probability", fmt v)].lookup k).getD "")) = [r, a, b] := by
    change [pyStrip r, pyStrip a, pyStrip b] = _
    rw [pyStrip_trimmed ta, pyStrip_trimmed tb, pyStrip_trimmed tr]
  have e5 : pyStrip (([("reference", r), ("element_from", a), ("element_to", b),
      ("probability", fmt v)].lookup "probability").getD "") = fmt v := hv'
  rw [if_neg (not_not.2 e1), if_neg (by rw [e2]; exact Bool.false_ne_true)]
  simp only [e4, e5, hv.1]
  refine if_neg ?_
  rintro ⟨-, h1, h2⟩
  rcases hr with rfl | rfl
  · exact h1 rfl
  · exact h2 rfl

/-- C63 (partial: labels without whitespace at the ends). A chain saved as an XML file is read back. -/
theorem C63_xml_partial (c : MC K) (h : c.Accepted) (fmt : K → String) (parse : String → Option K)
    (hl : ∀ s ∈ c.states, Trimmed s) (hf : ∀ i j, Printed fmt parse (c.p i j)) :
    ∃ f, mcToFile fmt ".xml" c = .ok f ∧ mcFromFile parse f = .ok c := by
  refine ⟨.xml (writeXml true fmt (mcItems c)), ?_, ?_⟩
  · rw [← mcDict_eq h]
    rfl
  · have e : readXml true parse (writeXml true fmt (mcItems c)) = .ok (mcItems c) := by
      unfold readXml writeXml
      rw [mapM_map_ok, R.ok_bind, dictOf_nodup _ (mc_items_nodup h)]
      · rfl
      · intro x hx
        obtain ⟨a, ha, b, hb, i, j, rfl⟩ := mc_item h hx
        exact readXml_mc fmt parse a b _ (nonBlank_isEmpty (h.2.2.2.2.2 _ ha))
          (nonBlank_isEmpty (h.2.2.2.2.2 _ hb)) (hl _ ha) (hl _ hb) (hf i j)
    change (readXml true parse (writeXml true fmt (mcItems c)) >>= fun d => chainOfDict d) = _
    rw [e, R.ok_bind]
    exact chainOfDict_items c h

/-- C63 (partial: labels without whitespace at the ends) for hidden Markov models and XML files. -/
theorem C63_hmm_xml_partial (m : HMM K) (h : m.Accepted) (fmt : K → String)
    (parse : String → Option K) (hl : ∀ s ∈ m.states, Trimmed s) (hy : ∀ s ∈ m.symbols, Trimmed s)
    (hp : ∀ i j, Printed fmt parse (m.p i j)) (he : ∀ i j, Printed fmt parse (m.e i j)) :
    ∃ f, hmmToFile fmt ".xml" m = .ok f ∧ hmmFromFile parse f = .ok m := by
  refine ⟨.xml (writeXml false fmt (hmmItems m)), ?_, ?_⟩
  · rw [← hmmDict_eq h]
    rfl
  · have e : readXml false parse (writeXml false fmt (hmmItems m)) = .ok (hmmItems m) := by
      unfold readXml writeXml
      rw [mapM_map_ok, R.ok_bind, dictOf_nodup _ (hmm_items_nodup h)]
      · rfl
      · intro x hx
        have hn := h.2.2.2.2.2.2.1.2.2
        have hn' := h.2.2.2.2.2.2.2.1.2.2
        obtain ⟨a, ha, ⟨b, hb, i, j, rfl⟩ | ⟨b, hb, i, j, rfl⟩⟩ := hmm_item h hx
        · exact readXml_hmm fmt parse "P" a b _ (Or.inr rfl) (nonBlank_isEmpty (hn _ ha))
            (nonBlank_isEmpty (hn _ hb)) (hl _ ha) (hl _ hb) (hp i j)
        · exact readXml_hmm fmt parse "E" a b _ (Or.inl rfl) (nonBlank_isEmpty (hn _ ha))
            (nonBlank_isEmpty (hn' _ hb)) (hl _ ha) (hy _ hb) (he i j)
    change (readXml false parse (writeXml false fmt (hmmItems m)) >>= fun d => modelOfDict d) = _
    rw [e, R.ok_bind]
    exact modelOfDict_items m h

/-! ## CSV files -/

theorem readCsvRow_ok {n : ℕ} {fmt : K → String} {parse : String → Option K} (row : List K)
    (hn : row.length = n) (hf : ∀ x ∈ row, Printed fmt parse x) :
    readCsvRow parse n (row.map fmt) = .ok row := by
  unfold readCsvRow
  rw [if_neg]
  · rw [mapM_map_ok]
    intro x hx
    simp only [(hf x hx).1]
    rfl
  · rintro (h | h)
    · rw [List.length_map] at h
      exact h hn
    · rw [List.any_eq_true] at h
      obtain ⟨s, hs, hs'⟩ := h
      obtain ⟨x, hx, rfl⟩ := List.mem_map.1 hs
      exact (hf x hx).2.1 (String.isEmpty_iff.1 hs')

theorem mcItems_zip (states : List String) (p : Matrix (Fin states.length) (Fin states.length) K) :
    ((states.zip ((List.finRange states.length).map fun i =>
        (List.finRange states.length).map fun j => p i j)).flatMap fun x =>
        (states.zip x.2).map fun y => ([x.1, y.1], y.2)) =
      mcItems ⟨states.length, p, states⟩ := by
  have e : ∀ {β : Type} (g : Fin states.length → β),
      states.zip ((List.finRange states.length).map g) =
        (List.finRange states.length).map fun i => (states[i.val], g i) := by
    intro β g
    refine Eq.trans ?_ List.zip_map'
    rw [map_getElem_finRange]
  rw [e, List.flatMap_map]
  unfold mcItems
  refine List.flatMap_congr fun i _ => ?_
  dsimp only
  rw [e, List.map_map]
  refine List.map_congr_left fun j _ => ?_
  simp only [Function.comp_apply, getD_fin]

/-- C63. A chain saved as a CSV file is read back, whatever its labels. -/
theorem C63_csv (c : MC K) (h : c.Accepted) (fmt : K → String) (parse : String → Option K)
    (hf : ∀ i j, Printed fmt parse (c.p i j)) :
    ∃ f, mcToFile fmt ".csv" c = .ok f ∧ mcFromFile parse f = .ok c := by
  have hd := mcDict_eq h
  have hc := chainOfDict_items c h
  have hnd := mc_items_nodup h
  obtain ⟨n, p, states⟩ := c
  obtain ⟨h1, -, h3, h4, h5, h6⟩ := h
  change states.length = n at h4
  subst h4
  have e0 : (List.ofFn fun i => List.ofFn fun j => fmt (p i j)) =
      ((List.finRange states.length).map fun i =>
        ((List.finRange states.length).map fun j => p i j)).map (List.map fmt) := by
    rw [List.ofFn_eq_map, List.map_map]
    refine List.map_congr_left fun i _ => ?_
    rw [List.ofFn_eq_map, Function.comp_apply, List.map_map]
    rfl
  obtain ⟨rows, hrows⟩ : ∃ rows : List (List K), rows = (List.finRange states.length).map fun i =>
    ((List.finRange states.length).map fun j => p i j) := ⟨_, rfl⟩
  have hw : writeCsvMc fmt (mcItems ⟨states.length, p, states⟩) =
      .ok (states :: rows.map (List.map fmt)) := by
    unfold writeCsvMc
    rw [dictStates_mcItems states p h5]
    unfold csvMc
    rw [dictMatrix_mcItems states p h5, R.ok_bind, hrows, ← e0]
    rfl
  refine ⟨.csv (states :: rows.map (List.map fmt)), ?_, ?_⟩
  · have : mcToFile fmt ".csv" ⟨states.length, p, states⟩ =
        (writeCsvMc fmt (mcToDictionary ⟨states.length, p, states⟩) >>= fun r => pure (.csv r)) := rfl
    rw [this, hd, hw, R.ok_bind]
    rfl
  · have hr : readCsvMc parse (states :: rows.map (List.map fmt)) =
        .ok (mcItems ⟨states.length, p, states⟩) := by
      unfold readCsvMc
      dsimp only
      rw [if_neg, if_neg (not_not.2 h5), if_neg, mapM_map_ok, R.ok_bind, hrows, mcItems_zip,
        dictOf_nodup _ hnd]
      · rfl
      · intro row hrow
        rw [hrows] at hrow
        obtain ⟨i, -, rfl⟩ := List.mem_map.1 hrow
        refine readCsvRow_ok _ (by rw [List.length_map, List.length_finRange]) ?_
        intro x hx
        obtain ⟨j, -, rfl⟩ := List.mem_map.1 hx
        exact hf i j
      · rw [not_not, List.length_map, hrows, List.length_map, List.length_finRange]
      · rw [List.any_eq_true]
        rintro ⟨s, hs, hs'⟩
        exact nonBlank_ne (h6 s hs) (String.isEmpty_iff.1 hs')
    change (readCsvMc parse (states :: rows.map (List.map fmt)) >>= fun d => chainOfDict d) = _
    rw [hr, R.ok_bind]
    exact hc

/-- A string that does not end with whitespace. -/
def EndTrimmed (s : String) : Prop := ∀ ch, s.toList.getLast? = some ch → pyIsSpace ch = false

theorem readCsvLabel_ok (x y : Char) (r s : String) (hx : pyIsSpace x = false)
    (h : (String.ofList [x, y] = "E_" ∧ r = "E") ∨ (String.ofList [x, y] = "P_" ∧ r = "P"))
    (hn : s ≠ "") (ht : EndTrimmed s) :
    readCsvLabel (String.ofList [x, y] ++ s) = .ok (r, s) := by
  have e1 : (String.ofList [x, y] ++ s).toList = x :: y :: s.toList := by
    rw [String.toList_append, String.toList_ofList]
    rfl
  have hne : s.toList ≠ [] := fun e => hn (String.toList_injective e)
  have hst : pyStrip (String.ofList [x, y] ++ s) = String.ofList [x, y] ++ s := by
    refine pyStrip_trimmed ⟨?_, ?_⟩
    · intro ch hc
      rw [e1] at hc
      injection hc with hc
      exact hc ▸ hx
    · intro ch hc
      refine ht ch ?_
      rw [e1] at hc
      rw [← hc]
      cases hs : s.toList with
      | nil => exact absurd hs hne
      | cons a l => simp [List.getLast?_cons]
  unfold readCsvLabel
  rw [if_neg]
  · simp only [hst, e1, List.take_succ_cons, List.take_zero, List.drop_succ_cons, List.drop_zero,
      String.ofList_toList]
    rcases h with ⟨h1, rfl⟩ | ⟨h1, rfl⟩
    · rw [if_pos h1]
      rfl
    · rw [if_neg (by rw [h1]; decide), if_pos h1]
      rfl
  · rw [e1]
    cases hs : s.toList with
    | nil => exact absurd hs hne
    | cons a l => simp

theorem readCsvLabels_ok (states symbols : List String) (hs : ∀ s ∈ states, s ≠ "" ∧ EndTrimmed s)
    (hy : ∀ s ∈ symbols, s ≠ "" ∧ EndTrimmed s) :
    (states.map ("P_" ++ ·) ++ symbols.map ("E_" ++ ·)).mapM readCsvLabel =
      .ok (states.map (fun s => ("P", s)) ++ symbols.map fun s => ("E", s)) := by
  rw [mapM_R_eq_ok]
  refine List.rel_append ?_ ?_
  · rw [List.forall₂_map_left_iff, List.forall₂_map_right_iff, List.forall₂_same]
    intro s h
    exact readCsvLabel_ok 'P' '_' "P" s (by decide) (Or.inr ⟨rfl, rfl⟩) (hs s h).1 (hs s h).2
  · rw [List.forall₂_map_left_iff, List.forall₂_map_right_iff, List.forall₂_same]
    intro s h
    exact readCsvLabel_ok 'E' '_' "E" s (by decide) (Or.inl ⟨rfl, rfl⟩) (hy s h).1 (hy s h).2

theorem zip_finRange {β : Type} (l : List String) (g : Fin l.length → β) :
    l.zip ((List.finRange l.length).map g) =
      (List.finRange l.length).map fun i => (l[i.val], g i) := by
  refine Eq.trans ?_ List.zip_map'
  rw [map_getElem_finRange]

theorem hmmItems_zip (states symbols : List String)
    (p : Matrix (Fin states.length) (Fin states.length) K)
    (e : Matrix (Fin states.length) (Fin symbols.length) K) :
    ((states.zip ((List.finRange states.length).map fun i =>
        ((List.finRange states.length).map fun j => p i j) ++
          (List.finRange symbols.length).map fun j => e i j)).flatMap fun x =>
        ((states.map (fun s => ("P", s)) ++ symbols.map fun s => ("E", s)).zip x.2).map
          fun y => ([y.1.1, x.1, y.1.2], y.2)) =
      hmmItems ⟨states.length, symbols.length, p, e, states, symbols⟩ := by
  rw [zip_finRange, List.flatMap_map]
  unfold hmmItems
  refine List.flatMap_congr fun i _ => ?_
  dsimp only
  rw [List.zip_append (by rw [List.length_map, List.length_map, List.length_finRange]),
    List.map_append, List.zip_map_left, List.zip_map_left, zip_finRange, zip_finRange]
  simp only [List.map_map]
  congr 1
  · refine List.map_congr_left fun j _ => ?_
    simp only [Function.comp_apply, getD_fin, Prod.map, id]
  · refine List.map_congr_left fun j _ => ?_
    simp only [Function.comp_apply, getD_fin, Prod.map, id]

theorem filter_labels (states symbols : List String) :
    (((states.map (fun s => ("P", s)) ++ symbols.map fun s => ("E", s)).filter
        fun x => x.1 = "P").map Prod.snd) = states ∧
      (((states.map (fun s => ("P", s)) ++ symbols.map fun s => ("E", s)).filter
        fun x => x.1 = "E").map Prod.snd) = symbols := by
  constructor
  · simp [List.filter_map, Function.comp_def]
  · simp [List.filter_map, Function.comp_def]

/-- C63 (partial: labels that do not end with whitespace). A hidden Markov model saved as a CSV file is
read back. -/
theorem C63_hmm_csv_partial (m : HMM K) (h : m.Accepted) (fmt : K → String)
    (parse : String → Option K) (hl : ∀ s ∈ m.states, EndTrimmed s)
    (hy : ∀ s ∈ m.symbols, EndTrimmed s)
    (hp : ∀ i j, Printed fmt parse (m.p i j)) (he : ∀ i j, Printed fmt parse (m.e i j)) :
    ∃ f, hmmToFile fmt ".csv" m = .ok f ∧ hmmFromFile parse f = .ok m := by
  have hd := hmmDict_eq h
  have hc := modelOfDict_items m h
  have hnd := hmm_items_nodup h
  obtain ⟨n, k, p, e, states, symbols⟩ := m
  obtain ⟨h1, -, -, -, -, -, ⟨h5, h6, h6'⟩, ⟨h7, h8, h8'⟩, -⟩ := h
  change states.length = n at h5
  change symbols.length = k at h7
  subst h5 h7
  have e0 : (List.ofFn fun i => (List.ofFn fun j => fmt (p i j)) ++ List.ofFn fun j => fmt (e i j)) =
      ((List.finRange states.length).map fun i =>
        ((List.finRange states.length).map fun j => p i j) ++
          (List.finRange symbols.length).map fun j => e i j).map (List.map fmt) := by
    rw [List.ofFn_eq_map, List.map_map]
    refine List.map_congr_left fun i _ => ?_
    rw [List.ofFn_eq_map, List.ofFn_eq_map, Function.comp_apply, List.map_append, List.map_map,
      List.map_map]
    rfl
  obtain ⟨rows, hrows⟩ : ∃ rows : List (List K), rows = (List.finRange states.length).map fun i =>
    ((List.finRange states.length).map fun j => p i j) ++
      (List.finRange symbols.length).map fun j => e i j := ⟨_, rfl⟩
  have hw : writeCsvHmm fmt (hmmItems ⟨states.length, symbols.length, p, e, states, symbols⟩) =
      .ok ((states.map ("P_" ++ ·) ++ symbols.map ("E_" ++ ·)) :: rows.map (List.map fmt)) := by
    unfold writeCsvHmm
    rw [dictHmmStates_items states symbols p e h6, dictHmmSymbols_items states symbols p e h6 h1]
    unfold csvHmm
    rw [dictMatrices_items states symbols p e h6 h8, R.ok_bind, hrows, ← e0]
    rfl
  refine ⟨.csv ((states.map ("P_" ++ ·) ++ symbols.map ("E_" ++ ·)) :: rows.map (List.map fmt)),
    ?_, ?_⟩
  · have : hmmToFile fmt ".csv" ⟨states.length, symbols.length, p, e, states, symbols⟩ =
        (writeCsvHmm fmt (hmmToDictionary ⟨states.length, symbols.length, p, e, states, symbols⟩) >>=
          fun r => pure (.csv r)) := rfl
    rw [this, hd, hw, R.ok_bind]
    rfl
  · have hr : readCsvHmm parse
        ((states.map ("P_" ++ ·) ++ symbols.map ("E_" ++ ·)) :: rows.map (List.map fmt)) =
        .ok (hmmItems ⟨states.length, symbols.length, p, e, states, symbols⟩) := by
      unfold readCsvHmm
      dsimp only
      rw [readCsvLabels_ok states symbols (fun s hs => ⟨nonBlank_ne (h6' s hs), hl s hs⟩)
        (fun s hs => ⟨nonBlank_ne (h8' s hs), hy s hs⟩), R.ok_bind]
      rw [(filter_labels states symbols).1, (filter_labels states symbols).2, if_neg, if_neg,
        mapM_map_ok, R.ok_bind, hrows, hmmItems_zip, dictOf_nodup _ hnd]
      · rfl
      · intro row hrow
        rw [hrows] at hrow
        obtain ⟨i, -, rfl⟩ := List.mem_map.1 hrow
        refine readCsvRow_ok _ (by simp) ?_
        intro x hx
        rcases List.mem_append.1 hx with hx | hx
        · obtain ⟨j, -, rfl⟩ := List.mem_map.1 hx
          exact hp i j
        · obtain ⟨j, -, rfl⟩ := List.mem_map.1 hx
          exact he i j
      · rw [not_not, List.length_map, hrows, List.length_map, List.length_finRange]
      · rintro (h | h)
        · exact h h6
        · exact h h8
    change (readCsvHmm parse ((states.map ("P_" ++ ·) ++ symbols.map ("E_" ++ ·)) ::
      rows.map (List.map fmt)) >>= fun d => modelOfDict d) = _
    rw [hr, R.ok_bind]
    exact hc

/-! ## Labels that are not read back -/

/-- The digits `0.5`, `1.0` and `0.0`. -/
def exFmt (x : ℚ) : String := if x = 1 / 2 then "0.5" else if x = 1 then "1.0" else "0.0"

/-- The floats of these strings. -/
def exParse (s : String) : Option ℚ :=
  if s = "0.5" then some (1 / 2) else if s = "1.0" then some 1 else if s = "0.0" then some 0 else none

theorem exPrinted (i j : Fin 2) : Printed exFmt exParse (exNamesP i j) := by
  unfold Printed Solid
  fin_cases i <;> fin_cases j <;> exact ⟨by decide +kernel, by decide +kernel, by decide +kernel⟩

/-- C63 fails for text files: a chain with a space in a label is written but not read. -/
theorem C63_txt_space : exNames.Valid ∧
    (mcToFile exFmt ".txt" exNames >>= fun f => mcFromFile exParse f).toOption.isNone = true :=
  ⟨exNames_valid, by decide +kernel⟩

/-- C63 fails for XML files: the label `"rain "` is silently read as `"rain"`. -/
theorem C63_xml_label_changed : exNames.Valid ∧
    (mcToFile exFmt ".xml" exNames >>= fun f => mcFromFile exParse f).toOption.map MC.states =
      some ["sunny day", "rain"] :=
  ⟨exNames_valid, by decide +kernel⟩

/-- A hidden Markov model for which the file formats are compared. -/
def exNamesHmm2 : HMM ℚ := ⟨2, 2, exNamesP, exNamesP, ["sunny day", "rain "], ["walk ", "stay in"]⟩

theorem exNamesHmm2_accepted : exNamesHmm2.Accepted := by
  have h := exNames_valid.accepted
  have h' := exNamesHmm_accepted
  exact ⟨h'.1, h'.2.1, h.2.1, h.2.1, h.2.2.1, h.2.2.1, h'.2.2.2.2.2.2⟩

/-- C63 fails for hidden Markov models and CSV files: labels are silently changed. -/
theorem C63_hmm_csv_label_changed : exNamesHmm2.Accepted ∧
    (hmmToFile exFmt ".csv" exNamesHmm2 >>= fun f => hmmFromFile exParse f).toOption.map HMM.symbols =
      some ["walk", "stay in"] :=
  ⟨exNamesHmm2_accepted, by decide +kernel⟩

/-- C63: the chain of the counterexamples is read back from JSON and CSV files. -/
theorem C63_instance :
    (∃ f, mcToFile exFmt ".json" exNames = .ok f ∧ mcFromFile exParse f = .ok exNames) ∧
    ∃ f, mcToFile exFmt ".csv" exNames = .ok f ∧ mcFromFile exParse f = .ok exNames :=
  ⟨C63_json _ exNames_valid.accepted _ _,
    C63_csv _ exNames_valid.accepted _ _ fun i j => exPrinted i j⟩

/-- The chain of the counterexamples with shorter labels. -/
def exShort : MC ℚ := ⟨2, exNamesP, ["sun", "rain"]⟩

theorem exShort_accepted : exShort.Accepted :=
  ⟨exNames_valid.accepted.1, exNames_valid.accepted.2.1, exNames_valid.accepted.2.2.1,
    ⟨rfl, by decide, by decide⟩⟩

theorem exShort_solid : ∀ s ∈ exShort.states, Solid s := by
  unfold Solid
  decide

theorem C63_txt_instance :
    ∃ f, mcToFile exFmt ".txt" exShort = .ok f ∧ mcFromFile exParse f = .ok exShort :=
  C63_txt_partial _ exShort_accepted _ _ exShort_solid fun i j => exPrinted i j

theorem C63_xml_instance :
    ∃ f, mcToFile exFmt ".xml" exShort = .ok f ∧ mcFromFile exParse f = .ok exShort :=
  C63_xml_partial _ exShort_accepted _ _ (fun s hs => (exShort_solid s hs).trimmed)
    fun i j => exPrinted i j

end Verif
