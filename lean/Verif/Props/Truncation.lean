import Verif.Props.Files

/-!
# Property C64: truncated text files
-/

set_option linter.unusedSectionVars false

namespace Verif

variable {K : Type} [Field K] [LinearOrder K] [IsStrictOrderedRing K]

/-! ## Prefixes -/

theorem prefix_flatMap {α β : Type} (f : α → List β) (L : List α) (l : List β)
    (h : l <+: L.flatMap f) : ∃ m r, l = (L.take m).flatMap f ++ r ∧
      ((m = L.length ∧ r = []) ∨ ∃ x, L[m]? = some x ∧ r <+: f x ∧ r ≠ f x) := by
  induction L generalizing l with
  | nil =>
    rw [List.flatMap_nil, List.prefix_nil] at h
    exact ⟨0, [], by simp [h], Or.inl ⟨rfl, rfl⟩⟩
  | cons x L ih =>
    rw [List.flatMap_cons] at h
    rcases List.prefix_or_prefix_of_prefix h (List.prefix_append (f x) (L.flatMap f)) with h1 | h1
    · by_cases e : l = f x
      · obtain ⟨m, r, h2, h3⟩ := ih [] (List.nil_prefix)
        have h4 := List.append_eq_nil_iff.1 h2.symm
        refine ⟨m + 1, r, ?_, ?_⟩
        · rw [List.take_succ_cons, List.flatMap_cons, h4.1, h4.2, e, List.append_nil, List.append_nil]
        · rcases h3 with ⟨h5, h6⟩ | ⟨y, h5, h6⟩
          · exact Or.inl ⟨by rw [h5]; rfl, h6⟩
          · exact Or.inr ⟨y, by rw [List.getElem?_cons_succ]; exact h5, h6⟩
      · exact ⟨0, l, rfl, Or.inr ⟨x, rfl, h1, e⟩⟩
    · obtain ⟨t, rfl⟩ := h1
      rw [List.prefix_append_right_inj] at h
      obtain ⟨m, r, h2, h3⟩ := ih t h
      refine ⟨m + 1, r, ?_, ?_⟩
      · rw [List.take_succ_cons, List.flatMap_cons, h2, List.append_assoc]
      · rcases h3 with ⟨h5, h6⟩ | ⟨y, h5, h6⟩
        · exact Or.inl ⟨by rw [h5]; rfl, h6⟩
        · exact Or.inr ⟨y, by rw [List.getElem?_cons_succ]; exact h5, h6⟩

theorem prefix_append_cases {α : Type} {r x y : List α} (h : r <+: x ++ y) :
    r <+: x ∨ ∃ t, r = x ++ t ∧ t <+: y := by
  rcases List.prefix_or_prefix_of_prefix h (List.prefix_append x y) with h1 | h1
  · exact Or.inl h1
  · obtain ⟨t, rfl⟩ := h1
    rw [List.prefix_append_right_inj] at h
    exact Or.inr ⟨t, rfl, h⟩

theorem words_short (r : List Char) (parts : List String) (hp : ∀ a ∈ parts, Solid a ∧ a ≠ "")
    (h : r <+: parts.flatMap fun a => a.toList ++ [' ']) : (words r).length ≤ parts.length := by
  obtain ⟨m, t, rfl, ht⟩ := prefix_flatMap _ parts r h
  have hp' : ∀ a ∈ parts.take m, Solid a ∧ a ≠ "" := fun a ha => hp a (List.mem_of_mem_take ha)
  rcases ht with ⟨hm, rfl⟩ | ⟨x, hx, h1, h2⟩
  · rw [words_eq _ hp' [] (by simp), if_pos rfl, List.append_nil]
    simp
  · have hx' := hp x (List.mem_of_getElem? hx)
    have h3 : t <+: x.toList := (List.prefix_concat_iff.1 h1).resolve_left h2
    rw [words_eq _ hp' t fun c hc => hx'.1 c (h3.subset hc)]
    have hm : m < parts.length := (List.getElem?_eq_some_iff.1 hx).1
    rw [List.length_append, List.length_take, Nat.min_eq_left hm.le]
    split <;> simp <;> omega

/-- What can be read from a line that was cut. -/
theorem read_cut {mc : Bool} {fmt : K → String} {parse : String → Option K} {x y : List String × K}
    (h : Readable mc fmt parse x) {r : List Char} (hr : r <+: txtLine fmt x)
    (hy : readTxtRow mc parse (words r) = .ok y) :
    y.1 = x.1 ∧ ∃ v, v <+: (fmt x.2).toList ∧ v ≠ [] ∧ parse (String.ofList v) = some y.2 ∧
      r = (x.1.flatMap fun a => a.toList ++ [' ']) ++ v := by
  obtain ⟨h1, h2, h3, h4, h5, h6⟩ := h
  rcases prefix_append_cases hr with hr | ⟨v, rfl, hv⟩
  · have hw := words_short r x.1 h3 hr
    exfalso
    unfold readTxtRow at hy
    rw [R.ite_throw] at hy
    have := hy.1
    cases mc <;> simp at this h1 <;> omega
  · have hv' : ∀ c ∈ v, pyIsSpace c = false := fun c hc => h4 c (hv.subset hc)
    rw [words_eq _ h3 v hv'] at hy
    by_cases e : v = []
    · exfalso
      rw [if_pos e, List.append_nil] at hy
      unfold readTxtRow at hy
      rw [R.ite_throw] at hy
      have := hy.1
      cases mc <;> simp at this h1 <;> omega
    · rw [if_neg e, readTxtRow_parts mc parse x.1 _ h1 h2] at hy
      obtain ⟨w, hw, rfl⟩ := hy
      exact ⟨rfl, v, hv, e, hw, rfl⟩

/-- The dictionary that is read from a truncated file. -/
theorem readTxt_cut {mc : Bool} {fmt : K → String} {parse : String → Option K} {d : PyDict K}
    (h : ∀ x ∈ d, Readable mc fmt parse x) (hn : (d.map Prod.fst).Nodup) {l : List Char}
    (hl : l <+: writeTxt fmt d) {D : PyDict K} (hD : readTxt mc parse l = .ok D) :
    ∃ m, (D = d.take m ∧ (m = d.length ∨ m < d.length)) ∨
      ∃ x y, d[m]? = some x ∧ y.1 = x.1 ∧ D = d.take m ++ [y] ∧ l.getLast? ≠ some '\n' := by
  obtain ⟨m, r, rfl, hr⟩ := prefix_flatMap _ d l hl
  refine ⟨m, ?_⟩
  have hm : ∀ x ∈ d.take m, Readable mc fmt parse x := fun x hx => h x (List.mem_of_mem_take hx)
  have hnt : ((d.take m).map Prod.fst).Nodup := by
    rw [List.map_take]
    exact hn.sublist (List.take_sublist _ _)
  have ew : ((d.take m).flatMap fun x => (x.1.flatMap fun a => a.toList ++ [' ']) ++
      (fmt x.2).toList ++ ['\n']) = ((d.take m).map (txtLine fmt)).flatMap fun l => l ++ ['\n'] :=
    writeTxt_eq fmt (d.take m)
  have hlines : ∀ l ∈ (d.take m).map (txtLine fmt), NoBreak l := by
    intro l hl
    obtain ⟨x, hx, rfl⟩ := List.mem_map.1 hl
    exact txtLine_noBreak (fun a ha => ((hm x hx).2.2.1 a ha).1) (hm x hx).2.2.2.1
  rw [ew] at hD ⊢
  unfold readTxt at hD
  rcases hr with ⟨hm', rfl⟩ | ⟨x, hx, hr1, hr2⟩
  · rw [fileLines_eq _ hlines [] ⟨List.not_mem_nil, List.not_mem_nil⟩, if_pos rfl, List.append_nil,
      readTxt_rows hm, R.ok_bind, R.pure_ok, dictOf_nodup _ hnt] at hD
    exact Or.inl ⟨hD.symm, Or.inl hm'⟩
  · have hx' := h x (List.mem_of_getElem? hx)
    have hmlt : m < d.length := (List.getElem?_eq_some_iff.1 hx).1
    have hr3 : r <+: txtLine fmt x := (List.prefix_concat_iff.1 hr1).resolve_left hr2
    have hnb : NoBreak r := by
      have := txtLine_noBreak (fun a ha => (hx'.2.2.1 a ha).1) hx'.2.2.2.1
      exact ⟨fun h => this.1 (hr3.subset h), fun h => this.2 (hr3.subset h)⟩
    rw [fileLines_eq _ hlines r hnb] at hD
    by_cases e : r = []
    · rw [if_pos e, List.append_nil, readTxt_rows hm, R.ok_bind, R.pure_ok,
        dictOf_nodup _ hnt] at hD
      exact Or.inl ⟨hD.symm, Or.inr hmlt⟩
    · right
      rw [if_neg e, List.mapM_append, readTxt_rows hm, R.ok_bind, R.bind_ok] at hD
      obtain ⟨rows, h1, h2⟩ := hD
      rw [R.bind_ok] at h1
      obtain ⟨ys, h3, h4⟩ := h1
      rw [mapM_R_eq_ok] at h3
      obtain ⟨y, ys', h5, h6, rfl⟩ := List.forall₂_cons_left_iff.1 h3
      cases h6
      rw [R.pure_ok] at h4 h2
      obtain ⟨h7, -⟩ := read_cut hx' hr3 h5
      refine ⟨x, y, hx, h7, ?_, ?_⟩
      · rw [← h2, ← h4, dictOf_nodup]
        have e2 : ((d.take m ++ [y]).map Prod.fst) = (d.map Prod.fst).take (m + 1) := by
          rw [List.map_append, List.map_singleton, h7, List.take_add_one, List.map_take,
            List.getElem?_map, hx]
          rfl
        rw [e2]
        exact hn.sublist (List.take_sublist _ _)
      · rw [List.getLast?_append]
        intro h8
        cases hg : r.getLast? with
        | none => exact e (List.getLast?_eq_none_iff.1 hg)
        | some ch =>
          rw [hg] at h8
          injection h8 with h8
          subst h8
          exact hnb.1 (List.mem_of_mem_getLast? (by rw [hg]; rfl))

/-! ## Incomplete dictionaries -/

theorem mcItems_keys (states : List String) (p : Matrix (Fin states.length) (Fin states.length) K) :
    (mcItems ⟨states.length, p, states⟩).map Prod.fst =
      states.flatMap fun a => states.map fun b => [a, b] := by
  unfold mcItems
  rw [List.map_flatMap]
  have e : states = (List.finRange states.length).map fun i => states[i.val] :=
    (map_getElem_finRange states).symm
  have e2 : ∀ a : String, (states.map fun b => [a, b]) =
      (List.finRange states.length).map fun j => [a, states[j.val]] := by
    intro a
    refine (congrArg (List.map fun b => [a, b]) e).trans ?_
    rw [List.map_map]
    rfl
  refine Eq.trans ?_ (congrArg (fun l : List String => l.flatMap fun a => states.map fun b => [a, b])
    e.symm)
  simp only [List.flatMap_map, e2, List.map_map]
  refine List.flatMap_congr fun i _ => List.map_congr_left fun j _ => ?_
  simp only [Function.comp_apply, getD_fin]

theorem dictMatrix_mem {states : List String} (d : PyDict K)
    (M : Matrix (Fin states.length) (Fin states.length) K)
    {N : Matrix (Fin states.length) (Fin states.length) K}
    (h : d.foldlM (fun M x =>
        match x.1 with
        | [a, b] => setEntry states states M a b x.2
        | _ => throw .valueError) M = (.ok N : R _)) :
    ∀ x ∈ d, ∃ a ∈ states, ∃ b ∈ states, x.1 = [a, b] := by
  induction d generalizing M with
  | nil => intro x hx; exact (List.not_mem_nil hx).elim
  | cons x d ih =>
    rw [List.foldlM_cons, R.bind_ok] at h
    obtain ⟨L, h1, h2⟩ := h
    intro y hy
    rcases List.mem_cons.1 hy with rfl | hy
    · obtain ⟨k, v⟩ := y
      match k, h1 with
      | [a, b], h1 =>
        obtain ⟨⟨ha, hb⟩, -⟩ := setEntry_ok.1 h1
        exact ⟨a, ha, b, hb, rfl⟩
      | [], h1 => cases h1
      | [a], h1 => cases h1
      | a :: b :: c :: l, h1 => cases h1
    · exact ih L h2 y hy

/-- A chain is obtained only when no key is missing at the end. -/
theorem prefix_complete {states : List String} (hs : states.Nodup) (h2 : 2 ≤ states.length)
    {D : PyDict K} (hp : D.map Prod.fst <+: states.flatMap fun a => states.map fun b => [a, b])
    (hn : (states.flatMap fun a => states.map fun b => [a, b]).Nodup)
    {c : MC K} (hc : chainOfDict D = .ok c) :
    D.map Prod.fst = states.flatMap fun a => states.map fun b => [a, b] := by
  obtain ⟨h3, M, hM, -, -⟩ := chainOfDict_ok.1 hc
  have hmem := dictMatrix_mem D 0 hM
  by_contra hne
  have hne0 : states ≠ [] := by
    rintro rfl
    simp at h2
  obtain ⟨init, z, hz⟩ : ∃ init z, states = init ++ [z] :=
    ⟨_, _, (List.dropLast_concat_getLast hne0).symm⟩
  obtain ⟨s, tl, hst⟩ : ∃ s tl, states = s :: tl := by
    cases states with
    | nil => exact absurd rfl hne0
    | cons s tl => exact ⟨s, tl, rfl⟩
  have hzs : z ∈ states := by rw [hz]; simp
  -- the last key is missing
  have hlast : [z, z] ∉ D.map Prod.fst := by
    have e : (states.flatMap fun a => states.map fun b => [a, b]) =
        ((init.flatMap fun a => states.map fun b => [a, b]) ++ init.map fun b => [z, b]) ++
          [[z, z]] := by
      conv_lhs => rw [hz, List.flatMap_append, List.flatMap_singleton, List.map_append, ← hz]
      rw [List.map_singleton, List.append_assoc]
    rw [e] at hp hne hn
    have hp' := (List.prefix_concat_iff.1 hp).resolve_left hne
    intro hmem'
    rw [List.nodup_append] at hn
    exact hn.2.2 _ (hp'.subset hmem') _ (List.mem_singleton.2 rfl) rfl
  have hz' : z ∉ dictStates D := fun h => hlast (mem_dictStates.1 h)
  -- the first row is complete
  have e : (states.flatMap fun a => states.map fun b => [a, b]) =
      (states.map fun b => [s, b]) ++ (tl.flatMap fun a => states.map fun b => [a, b]) := by
    conv_lhs => rw [hst, List.flatMap_cons, ← hst]
  rw [e] at hp
  rcases prefix_append_cases hp with h | ⟨t, ht, -⟩
  · have hsub : ∀ a ∈ dictStates D, a = s := by
      intro a ha
      obtain ⟨b, -, hb⟩ := List.mem_map.1 (h.subset (mem_dictStates.1 ha))
      injection hb with hb _
      exact hb.symm
    have hnd : (dictStates D).Nodup := dictStates_nodup (by
      rw [e] at hn
      exact hn.sublist ((h.trans (List.prefix_append _ _)).sublist))
    match hds : dictStates D, h3, hsub, hnd with
    | [], h3, _, _ => simp at h3
    | [a], h3, _, _ => simp at h3
    | a :: b :: l, _, hsub, hnd =>
      have h1 := hsub a List.mem_cons_self
      have h4 := hsub b (List.mem_cons_of_mem _ List.mem_cons_self)
      rw [List.nodup_cons] at hnd
      exact hnd.1 (by rw [h1, ← h4]; exact List.mem_cons_self)
  · have hk : [s, z] ∈ D.map Prod.fst := by
      rw [ht]
      exact List.mem_append_left _ (List.mem_map.2 ⟨z, hzs, rfl⟩)
    obtain ⟨x, hx, hxk⟩ := List.mem_map.1 hk
    obtain ⟨a, -, b, hb, hab⟩ := hmem x hx
    rw [hxk] at hab
    injection hab with _ hab
    injection hab with hab _
    exact hz' (hab ▸ hb)

theorem dictStates_congr {d D : PyDict K} (h : D.map Prod.fst = d.map Prod.fst) :
    dictStates D = dictStates d := by
  have e : ∀ d : PyDict K, dictStates d = (d.map Prod.fst).filterMap fun k =>
      match k with
      | [a, b] => if a = b then some a else none
      | _ => none := by
    intro d
    unfold dictStates
    rw [List.filterMap_map]
    rfl
  rw [e, e, h]

/-- C64 (partial: labels without whitespace, and the last number may be another one). If writing a text
file stops at any point, then reading the truncated file raises, or returns a chain with the same labels
and the same probabilities, except possibly the last one, which is changed by at most the tolerance; if
the file ends with a complete line, then it returns the chain that was being written. -/
theorem C64_truncated_partial (c : MC K) (h : c.Valid) (fmt : K → String)
    (parse : String → Option K) (hl : ∀ s ∈ c.states, Solid s)
    (hf : ∀ i j, Printed fmt parse (c.p i j)) {l : List Char}
    (hp : l <+: writeTxt fmt (mcToDictionary c)) {c' : MC K}
    (hr : mcFromFile parse (.txt l) = .ok c') :
    ∃ Q : Matrix (Fin c.n) (Fin c.n) K, c' = ⟨c.n, Q, c.states⟩ ∧
      (∀ i j : Fin c.n, (i.val + 1 < c.n ∨ j.val + 1 < c.n) → Q i j = c.p i j) ∧
      (∀ i j, |Q i j - c.p i j| ≤ 1 / 10 ^ 8 + 1 / 10 ^ 5) ∧
      (l.getLast? = some '\n' → Q = c.p) := by
  have ha := h.accepted
  rw [mcDict_eq ha] at hp
  have hread := mc_readable ha hl hf
  have hnd := mc_items_nodup ha
  have hitems := chainOfDict_items c ha
  have hr' : (readTxt true parse l >>= fun d => chainOfDict d) = .ok c' := by
    have h0 : (if l.isEmpty then throw .valueError else
      readTxt true parse l >>= fun d => chainOfDict d) = (.ok c' : R _) := hr
    rw [R.ite_throw] at h0
    exact h0.2
  rw [R.bind_ok] at hr'
  obtain ⟨D, hD, hc⟩ := hr'
  have htriv : c' = c → _ := fun e => (⟨c.p, e, fun _ _ _ => rfl, fun i j => by
    rw [sub_self, abs_zero]; positivity, fun _ => rfl⟩ :
    ∃ Q : Matrix (Fin c.n) (Fin c.n) K, c' = ⟨c.n, Q, c.states⟩ ∧
      (∀ i j : Fin c.n, (i.val + 1 < c.n ∨ j.val + 1 < c.n) → Q i j = c.p i j) ∧
      (∀ i j, |Q i j - c.p i j| ≤ 1 / 10 ^ 8 + 1 / 10 ^ 5) ∧
      (l.getLast? = some '\n' → Q = c.p))
  have hsame : D = mcItems c → c' = c := by
    rintro rfl
    exact (Except.ok.inj (hitems.symm.trans hc)).symm
  obtain ⟨n, p, states⟩ := c
  obtain ⟨h1, ⟨-, hsum⟩, h4, h5, h6⟩ := h
  change states.length = n at h4
  subst h4
  have hkeys := mcItems_keys states p
  have hlen : 2 ≤ states.length := h1
  obtain ⟨m, ⟨hD', hm⟩ | ⟨x, y, hx, hy, hD', hlast⟩⟩ := readTxt_cut hread hnd hp hD
  · -- complete lines
    refine htriv (hsame ?_)
    have hpre : D.map Prod.fst <+: states.flatMap fun a => states.map fun b => [a, b] := by
      rw [hD', List.map_take, hkeys]
      exact List.take_prefix _ _
    have hfull := prefix_complete h5 hlen hpre (hkeys ▸ hnd) hc
    have hl' := congrArg List.length hfull
    rw [← hkeys, List.length_map, List.length_map, hD', List.length_take] at hl'
    rw [hD']
    exact List.take_of_length_le (by omega)
  · -- the last line is cut
    have hmlt : m < (mcItems ⟨states.length, p, states⟩).length := (List.getElem?_eq_some_iff.1 hx).1
    have hk : D.map Prod.fst = ((mcItems ⟨states.length, p, states⟩).map Prod.fst).take (m + 1) := by
      rw [hD', List.map_append, List.map_singleton, hy, List.take_add_one, List.map_take,
        List.getElem?_map, hx]
      rfl
    have hpre : D.map Prod.fst <+: states.flatMap fun a => states.map fun b => [a, b] := by
      rw [hk, hkeys]
      exact List.take_prefix _ _
    have hfull := prefix_complete h5 hlen hpre (hkeys ▸ hnd) hc
    have hst : dictStates D = states := by
      rw [dictStates_congr (hfull.trans hkeys.symm), dictStates_mcItems states p h5]
    -- the item that was cut is the last one
    have hlm : m + 1 = (mcItems ⟨states.length, p, states⟩).length := by
      have := congrArg List.length (hk.symm.trans (hfull.trans hkeys.symm))
      rw [List.length_take, List.length_map] at this
      omega
    have hmem : ∀ i j : Fin states.length, (i.val + 1 < states.length ∨ j.val + 1 < states.length) →
        ([states[i.val], states[j.val]], p i j) ∈ D := by
      intro i j hij
      have hin := (mem_mcItems states p).2 ⟨i, j, rfl⟩
      have hsplit : mcItems ⟨states.length, p, states⟩ =
          (mcItems ⟨states.length, p, states⟩).take m ++ [x] := by
        conv_lhs => rw [← List.take_append_drop m (mcItems ⟨states.length, p, states⟩)]
        congr 1
        rw [List.drop_eq_getElem_cons hmlt, List.drop_eq_nil_of_le (by omega)]
        congr 1
        exact (List.getElem?_eq_some_iff.1 hx).2
      rw [hsplit] at hin
      rcases List.mem_append.1 hin with hin | hin
      · rw [hD']
        exact List.mem_append_left _ hin
      · exfalso
        rw [List.mem_singleton] at hin
        -- the last key consists of the last label
        have hne0 : states ≠ [] := by
          rintro rfl
          simp at hlen
        have e1 : ((mcItems ⟨states.length, p, states⟩).map Prod.fst).getLast? =
            some [states[i.val], states[j.val]] := by
          rw [hsplit, List.map_append, List.map_singleton, List.getLast?_concat, ← hin]
        have e2 : (states.flatMap fun a => states.map fun b => [a, b]).getLast? =
            some [states.getLast hne0, states.getLast hne0] := by
          obtain ⟨init, z, hz⟩ : ∃ init z, states = init ++ [z] :=
            ⟨_, _, (List.dropLast_concat_getLast hne0).symm⟩
          have e3 : states.getLast hne0 = z := by
            simp only [hz, List.getLast_append_singleton]
          rw [e3]
          conv_lhs => rw [hz, List.flatMap_append, List.flatMap_singleton, List.map_append,
            List.map_singleton, ← List.append_assoc, List.getLast?_concat]
        rw [hkeys, e2] at e1
        injection e1 with e1
        injection e1 with e4 e5
        injection e5 with e5 _
        rw [List.getLast_eq_getElem] at e4 e5
        have f4 := (List.Nodup.getElem_inj_iff h5).1 e4
        have f5 := (List.Nodup.getElem_inj_iff h5).1 e5
        omega
    obtain ⟨-, M, hM, hclose, rfl⟩ := chainOfDict_ok.1 hc
    have main : ∀ (st : List String) (hst : st = states)
        (M : Matrix (Fin st.length) (Fin st.length) K), dictMatrix st D = .ok M →
        (∀ i, |∑ j, M i j - 1| ≤ 1 / 10 ^ 8 + 1 / 10 ^ 5) →
        ∃ Q : Matrix (Fin states.length) (Fin states.length) K,
        (⟨st.length, M, st⟩ : MC K) = ⟨states.length, Q, states⟩ ∧
        (∀ i j : Fin states.length, (i.val + 1 < states.length ∨ j.val + 1 < states.length) →
          Q i j = p i j) ∧
        (∀ i j, |Q i j - p i j| ≤ 1 / 10 ^ 8 + 1 / 10 ^ 5) ∧
        (l.getLast? = some '\n' → Q = p) := by
      rintro st rfl M hM hclose
      refine ⟨M, rfl, ?_⟩
      obtain ⟨N, hN, hval, -⟩ := dictMatrix_fill h5 D 0 (dictMatrix_mem D 0 hM)
        (by rw [hfull, ← hkeys]; exact hnd)
      have e : M = N := Except.ok.inj (hM.symm.trans hN)
      subst e
      have hother : ∀ i j : Fin st.length, (i.val + 1 < st.length ∨ j.val + 1 < st.length) →
          M i j = p i j := fun i j hij => hval i j _ (hmem i j hij)
      refine ⟨hother, ?_, fun h => absurd h hlast⟩
      intro i j
      by_cases hij : i.val + 1 < st.length ∨ j.val + 1 < st.length
      · rw [hother i j hij, sub_self, abs_zero]
        positivity
      · have hs1 : ∑ l, M i l - 1 = M i j - p i j := by
          have hrow : ∑ l, p i l = 1 := hsum i
          rw [← hrow, ← Finset.sum_sub_distrib]
          refine Finset.sum_eq_single j ?_ fun h => absurd (Finset.mem_univ j) h
          intro l _ hlj
          rw [hother i l, sub_self]
          right
          have h7 : l.val ≠ j.val := fun e => hlj (Fin.ext e)
          have h8 := l.isLt
          omega
        rw [← hs1]
        exact hclose i
    exact main (dictStates D) hst M hM hclose

/-! ## A truncated file that is read as another chain -/

/-- The value of a list of decimal digits. -/
def digits (l : List Char) : Option ℕ :=
  l.foldl (fun a ch => a.bind fun n =>
    if 48 ≤ ch.toNat ∧ ch.toNat ≤ 57 then some (10 * n + (ch.toNat - 48)) else none) (some 0)

/-- Conversion of a decimal number without exponent, as by Python's `float`. -/
def parseDecimal (s : String) : Option ℚ :=
  match pieces (fun c => decide (c = '.')) s.toList with
  | [a, b] =>
    if a ++ b = [] then none
    else (digits (a ++ b)).map fun n => (n : ℚ) / 10 ^ b.length
  | [a] => if a = [] then none else (digits a).map fun n => (n : ℚ)
  | _ => none

/-- The transition matrix of `exCut`. -/
def exCutP : Matrix (Fin 2) (Fin 2) ℚ := fun i j =>
  if i = 0 then 1 / 2 else (if j = 0 then 499999 / 1000000 else 500001 / 1000000)

/-- A chain with a probability of six digits. -/
def exCut : MC ℚ := ⟨2, exCutP, ["a", "b"]⟩

/-- The strings of its probabilities. -/
def exCutFmt (x : ℚ) : String :=
  if x = 1 / 2 then "0.5" else if x = 499999 / 1000000 then "0.499999" else "0.500001"

theorem exCut_valid : exCut.Valid := by
  have h1 : ∀ i j : Fin 2, 0 ≤ exCutP i j := by
    intro i j
    fin_cases i <;> fin_cases j <;> decide +kernel
  have h2 : ∀ i : Fin 2, ∑ j, exCutP i j = 1 := by
    intro i
    fin_cases i <;> decide +kernel
  exact ⟨le_refl 2, ⟨h1, h2⟩, rfl, by decide, by decide⟩

theorem exCut_printed (i j : Fin 2) : Printed exCutFmt parseDecimal (exCutP i j) := by
  unfold Printed Solid
  fin_cases i <;> fin_cases j <;> exact ⟨by decide +kernel, by decide +kernel, by decide +kernel⟩

theorem exCut_solid : ∀ s ∈ exCut.states, Solid s := by
  unfold Solid
  decide

/-- C64 fails: without its last two characters, the file of this chain is read as a different chain. -/
theorem C64_other_chain : exCut.Valid ∧
    ((mcFromFile parseDecimal (.txt ((writeTxt exCutFmt (mcToDictionary exCut)).dropLast.dropLast))).map
      fun c => c.p.mulVec (fun j => if j.val = 1 then 1 else 0) |> List.ofFn).toOption =
      some [1 / 2, 1 / 2] ∧ exCut.p (1 : Fin 2) (1 : Fin 2) ≠ 1 / 2 :=
  ⟨exCut_valid, by decide +kernel, by decide +kernel⟩

/-- C64: a truncation that is not detected is one of those that `C64_truncated_partial` allows. -/
theorem C64_instance {l : List Char} (hl : l <+: writeTxt exCutFmt (mcToDictionary exCut)) {c : MC ℚ}
    (h : mcFromFile parseDecimal (.txt l) = .ok c) : c.states = ["a", "b"] := by
  obtain ⟨Q, rfl, -⟩ := C64_truncated_partial exCut exCut_valid exCutFmt parseDecimal exCut_solid
    (fun i j => exCut_printed i j) hl h
  rfl

/-- C64: a file without its last line is rejected, the complete file is not. -/
theorem C64_missing_line :
    (mcFromFile parseDecimal (.txt "a a 0.5\na b 0.5\nb a 1.0\n".toList)).toOption.isNone = true ∧
    (mcFromFile parseDecimal (.txt "a a 0.5\na b 0.5\nb a 1.0\nb b 0.0\n".toList)).toOption.isSome =
      true := by decide +kernel

end Verif
