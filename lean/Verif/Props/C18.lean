import Verif.Props.C08
import Verif.Props.C16
import Verif.Spec.Search
import Verif.Spec.Example
/-!
# C18: incremental search

`C18_enter`, `C18_cancel`, `C18_eof`: what one call of ISEARCH_BACKWARD does, for every sequence of
keys typed inside it, in terms of the small search machine `Spec.hunt`.  `C18_newest`,
`C18_found`: the line this machine shows is the newest entry containing the text typed, or is a
matching entry.  `C18_undo_partial`: Enter is one undo step, unless a unit behind the first starts with an
attaching code point; then Undo can give another text (`C18_refuted_undo`).
-/
namespace Readline
open Spec

theorem containsBytes_iff (t s : Bytes) :
    containsBytes t s = (List.range (s.length + 1)).any fun i => t.isPrefixOf (s.drop i) := by
  induction s with
  | nil => cases t <;> rfl
  | cons a s ih =>
    rw [containsBytes, ih, List.length_cons, List.range_succ_eq_map (n := s.length + 1), List.any_cons,
      List.any_map]
    rfl

theorem contains_occurs (E : Env) (line t : Bytes) :
    Ed.contains E.logic line t = occurs E.toUpper t line := by
  unfold Ed.contains occurs
  exact containsBytes_iff _ _

theorem isControlRune_iff (r : Rune) : isControlRune r = true ↔ isCtl r := by
  unfold isControlRune isCtl
  simp
  omega

/-- The variables of the command and the search machine. -/
structure HRel (E : Env) (it : ISt) (h : Hunt) : Prop where
  text : it.search = encodeRunes h.text
  scalar : ∀ r ∈ h.text, isScalar r = true
  shown : it.found = h.shown
  pos : E.history.length ≠ 0 → it.lastPos = h.pos ∧ h.pos < E.history.length
  empty : E.history.length = 0 → it.lastPos = -1 ∧ h.pos = 0

theorem searchUpdate_hunt {E : Env} {it : ISt} {h : Hunt} (hr : HRel E it h) (n : Nat)
    (hn : n ≤ E.history.length) :
    HRel E (Ed.searchUpdate E.logic it n)
      ((h.first E (List.range n).reverse (occurs E.toUpper (encodeRunes h.text))).getD
        { h with shown := [] }) := by
  induction n with
  | zero => exact ⟨hr.text, hr.scalar, rfl, hr.pos, hr.empty⟩
  | succ n ih =>
    have hlt : n < E.history.length := by omega
    have hg : E.logic.history[n]? = some (E.history.getD n []) := by
      show E.history[n]? = _
      simp [List.getD_eq_getElem?_getD, hlt]
    rw [Ed.searchUpdate, hg]
    dsimp only
    rw [contains_occurs, hr.text, List.range_succ, List.reverse_append]
    unfold Hunt.first
    rw [List.reverse_singleton, List.singleton_append]
    by_cases hc : occurs E.toUpper (encodeRunes h.text) (E.history.getD n []) = true
    · rw [if_pos hc, List.find?_cons_of_pos (by exact hc)]
      exact ⟨rfl, hr.scalar, rfl, fun _ => ⟨rfl, hlt⟩, fun h0 => by omega⟩
    · rw [if_neg hc, List.find?_cons_of_neg (by exact hc)]
      exact ih (by omega)

theorem newest_rel {E : Env} {it : ISt} {h : Hunt} (hr : HRel E it h) :
    HRel E (Ed.searchUpdate E.logic it E.history.length) (h.newest E) :=
  searchUpdate_hunt hr _ (Nat.le_refl _)

/-- what the two scanning loops test -/
def Spec.Hunt.fits (E : Env) (h : Hunt) : Bytes → Bool := fun line =>
    occurs E.toUpper (encodeRunes h.text) line && decide (h.shown ≠ line)

theorem histAt_nat (E : Env) (i : Nat) : Ed.histAt E.logic (i : Int) = E.history.getD i [] := rfl

theorem fits_iff {E : Env} {it : ISt} {h : Hunt} (hr : HRel E it h) (i : Nat) :
    (Ed.contains E.logic (Ed.histAt E.logic i) it.search = true ∧ it.found ≠ Ed.histAt E.logic i) ↔
      h.fits E (E.history.getD i []) = true := by
  rw [histAt_nat, contains_occurs, hr.text, hr.shown]
  simp [Hunt.fits]

theorem rel_jump {E : Env} {it : ISt} {h : Hunt} (hr : HRel E it h) {i : Nat}
    (hi : i < E.history.length) :
    HRel E { it with found := Ed.histAt E.logic i, lastPos := i }
      { h with shown := E.history.getD i [], pos := i } :=
  ⟨hr.text, hr.scalar, rfl, fun _ => ⟨rfl, hi⟩, fun h0 => by omega⟩

theorem searchPrev_nonneg (L : Logic) (it : ISt) (n : Nat) {i : Int} (h : 0 ≤ i) :
    Ed.searchPrev L it (n + 1) i =
      if i = it.lastPos then it
      else if Ed.contains L (Ed.histAt L i) it.search = true ∧ it.found ≠ Ed.histAt L i then
        { it with found := Ed.histAt L i, lastPos := i }
      else Ed.searchPrev L it n (i - 1) := by
  rw [Ed.searchPrev]
  have : (if i < 0 then Ed.histLen L - 1 else i) = i := if_neg (by omega)
  simp only [this]

/-- scanning down to the position -/
theorem searchPrev_down {E : Env} {it : ISt} {h : Hunt} (hr : HRel E it h) {p : Nat}
    (hp : it.lastPos = p) (k : Nat) (hk : p + k < E.history.length) (n : Nat) (hn : k < n) :
    HRel E (Ed.searchPrev E.logic it n ((p + k : Nat) : Int))
      ((h.first E (List.range' (p + 1) k).reverse (h.fits E)).getD h) := by
  induction k generalizing n with
  | zero =>
    obtain ⟨n, rfl⟩ : ∃ m, n = m + 1 := ⟨n - 1, by omega⟩
    rw [searchPrev_nonneg _ _ _ (by omega), if_pos (by rw [hp]; rfl)]
    exact hr
  | succ k ih =>
    obtain ⟨n, rfl⟩ : ∃ m, n = m + 1 := ⟨n - 1, by omega⟩
    rw [searchPrev_nonneg _ _ _ (by omega), if_neg (by rw [hp]; omega), List.range'_concat, List.reverse_append,
      List.reverse_singleton, List.singleton_append]
    unfold Hunt.first
    rw [show p + 1 + 1 * k = p + (k + 1) by omega]
    by_cases hc : h.fits E (E.history.getD (p + (k + 1)) []) = true
    · rw [if_pos ((fits_iff hr _).mpr hc), List.find?_cons_of_pos (by exact hc)]
      exact rel_jump hr hk
    · rw [if_neg (fun x => hc ((fits_iff hr _).mp x)), List.find?_cons_of_neg (by exact hc)]
      have := ih (by omega) n (by omega)
      rw [show (((p + (k + 1) : Nat) : Int) - 1) = ((p + k : Nat) : Int) by omega]
      exact this

theorem searchPrev_older {E : Env} {it : ISt} {h : Hunt} (hr : HRel E it h) {p : Nat}
    (hp : it.lastPos = p) (hlen : p < E.history.length) (k : Nat) (hk : k ≤ p) (n : Nat)
    (hn : k + (E.history.length - 1 - p) + 1 < n + 1) :
    HRel E (Ed.searchPrev E.logic it n ((k : Int) - 1))
      ((h.first E ((List.range k).reverse ++ (List.range' (p + 1) (E.history.length - 1 - p)).reverse)
        (h.fits E)).getD h) := by
  induction k generalizing n with
  | zero =>
    obtain ⟨n, rfl⟩ : ∃ m, n = m + 1 := ⟨n - 1, by omega⟩
    have := searchPrev_down hr hp (E.history.length - 1 - p) (by omega) (n + 1) (by omega)
    have h2 : Ed.searchPrev E.logic it (n + 1) (((0 : Nat) : Int) - 1) =
        Ed.searchPrev E.logic it (n + 1) ((p + (E.history.length - 1 - p) : Nat) : Int) := by
      rw [Ed.searchPrev, Ed.searchPrev]
      have h3 : Ed.histLen E.logic = E.history.length := rfl
      rw [h3]
      have h4 : (if (((0 : Nat) : Int) - 1) < 0 then (E.history.length : Int) - 1 else (((0 : Nat) : Int) - 1)) =
        (if ((p + (E.history.length - 1 - p) : Nat) : Int) < 0 then (E.history.length : Int) - 1
          else ((p + (E.history.length - 1 - p) : Nat) : Int)) := by
        split <;> split <;> omega
      rw [h4]
    rw [h2]
    simpa using this
  | succ k ih =>
    obtain ⟨n, rfl⟩ : ∃ m, n = m + 1 := ⟨n - 1, by omega⟩
    rw [searchPrev_nonneg _ _ _ (by omega), if_neg (by rw [hp]; omega), List.range_succ, List.reverse_append,
      List.reverse_singleton, List.singleton_append, List.cons_append]
    unfold Hunt.first
    rw [show (((k + 1 : Nat) : Int) - 1) = (k : Int) by omega]
    by_cases hc : h.fits E (E.history.getD k []) = true
    · rw [if_pos ((fits_iff hr _).mpr hc), List.find?_cons_of_pos (by exact hc)]
      exact rel_jump hr (by omega)
    · rw [if_neg (fun x => hc ((fits_iff hr _).mp x)), List.find?_cons_of_neg (by exact hc)]
      exact ih (by omega) n (by omega)

theorem searchNext_newer {E : Env} {it : ISt} {h : Hunt} (hr : HRel E it h) {p : Nat}
    (hp : it.lastPos = p) (m : Nat) (k : Nat) (hk : p < k) (hm : m = E.history.length - k) (n : Nat) (hn : m < n) :
    HRel E (Ed.searchNext E.logic it n (k : Int))
      ((h.first E (List.range' k m) (h.fits E)).getD h) := by
  induction m generalizing k n with
  | zero =>
    obtain ⟨n, rfl⟩ : ∃ m, n = m + 1 := ⟨n - 1, by omega⟩
    rw [Ed.searchNext, if_pos (by show (E.history.length : Int) ≤ k; omega)]
    exact hr
  | succ m ih =>
    obtain ⟨n, rfl⟩ : ∃ m, n = m + 1 := ⟨n - 1, by omega⟩
    rw [Ed.searchNext, if_neg (by show ¬ (E.history.length : Int) ≤ k; omega),
      if_neg (by rw [hp]; omega), List.range'_succ]
    unfold Hunt.first
    by_cases hc : h.fits E (E.history.getD k []) = true
    · rw [if_pos ((fits_iff hr _).mpr hc), List.find?_cons_of_pos (by exact hc)]
      exact rel_jump hr (by omega)
    · rw [if_neg (fun x => hc ((fits_iff hr _).mp x)), List.find?_cons_of_neg (by exact hc)]
      exact ih (k + 1) (by omega) (by omega) n (by omega)

theorem prev_rel {E : Env} {it : ISt} {h : Hunt} (hr : HRel E it h) :
    HRel E (Ed.searchPrev E.logic it (E.history.length + 2) (it.lastPos - 1))
      (h.other E (olderThan E.history.length h.pos)) := by
  by_cases h0 : E.history.length = 0
  · obtain ⟨hl, hp⟩ := hr.empty h0
    rw [Ed.searchPrev]
    have h3 : Ed.histLen E.logic = E.history.length := rfl
    rw [hl, h3, h0, hp]
    exact hr
  · obtain ⟨h1, h2⟩ := hr.pos h0
    rw [h1]
    exact searchPrev_older hr h1 h2 h.pos (Nat.le_refl _) _ (by omega)

theorem next_rel {E : Env} {it : ISt} {h : Hunt} (hr : HRel E it h) :
    HRel E (Ed.searchNext E.logic it (E.history.length + 2) (it.lastPos + 1))
      (h.other E (newerThan E.history.length h.pos)) := by
  by_cases h0 : E.history.length = 0
  · obtain ⟨hl, hp⟩ := hr.empty h0
    rw [Ed.searchNext]
    have h3 : Ed.histLen E.logic = E.history.length := rfl
    rw [hl, h3, h0, hp, if_pos (by omega)]
    exact hr
  · obtain ⟨h1, h2⟩ := hr.pos h0
    rw [h1]
    exact searchNext_newer hr h1 _ (h.pos + 1) (by omega) (by omega) _ (by omega)

theorem HRel.setText {E : Env} {it : ISt} {h : Hunt} (hr : HRel E it h) {t : Bytes} {rs : List Rune}
    (ht : t = encodeRunes rs) (hs : ∀ r ∈ rs, isScalar r = true) :
    HRel E { it with search := t } { h with text := rs } :=
  ⟨ht, hs, hr.shown, hr.pos, hr.empty⟩

theorem chopLast_encode {rs : List Rune} (h : ∀ r ∈ rs, isScalar r = true) :
    chopLast (encodeRunes rs) = encodeRunes rs.dropLast := by
  unfold chopLast
  rw [runesOf_encodeRunes h]

/-- One round of the loop for a key that stays inside the search. -/
theorem searchLoop_key {E : Env} {it : ISt} {h : Hunt} (hr : HRel E it h) {k : Bytes} {e e' : Ed}
    (hk : ¬ takes k ∧ ¬ givesUp k) (hg : Ed.getKey e = (some k, e')) (n : Nat) :
    ∃ it', HRel E it' (h.key E k) ∧
      Ed.searchLoop E.logic (n + 1) it e = Ed.searchLoop E.logic n it' e' := by
  rw [Ed.searchLoop, hg]
  dsimp only
  unfold Hunt.key
  have c8 : b "\x08" = [0x08] := by decide +kernel
  have c7f : b "\x7f" = [0x7F] := by decide +kernel
  have c12 : b "\x12" = [0x12] := by decide +kernel
  have c13 : b "\x13" = [0x13] := by decide +kernel
  have cd : b "\x0d" = [0x0D] := by decide +kernel
  have c3 : b "\x03" = [0x03] := by decide +kernel
  have c7 : b "\x07" = [0x07] := by decide +kernel
  have c1b : b "\x1b" = [0x1B] := by decide +kernel
  unfold takes givesUp at hk
  rw [cd, c3, c7, c1b] at hk
  rw [c8, c7f, c12, c13]
  by_cases h1 : k = [0x08] ∨ k = [0x7F]
  · rw [if_pos h1, if_pos h1]
    exact ⟨_, newest_rel (hr.setText (by rw [hr.text, chopLast_encode hr.scalar])
      (fun r hm => hr.scalar r (List.dropLast_subset _ hm))), rfl⟩
  rw [if_neg h1, if_neg h1, if_neg hk.1, if_neg hk.2]
  by_cases h2 : k = [0x12]
  · rw [if_pos h2, if_pos h2]
    exact ⟨_, prev_rel hr, rfl⟩
  rw [if_neg h2, if_neg h2]
  by_cases h3 : k = [0x13]
  · rw [if_pos h3, if_pos h3]
    exact ⟨_, next_rel hr, rfl⟩
  rw [if_neg h3, if_neg h3]
  by_cases h4 : isControlRune (decodeRune k).1 = true
  · rw [if_pos h4, if_pos ((isControlRune_iff _).mp h4)]
    exact ⟨_, hr, rfl⟩
  rw [if_neg h4, if_neg (fun x => h4 ((isControlRune_iff _).mpr x))]
  refine ⟨_, newest_rel (hr.setText (rs := h.text ++ [(decodeRune k).1]) ?_ ?_), rfl⟩
  · rw [hr.text, encodeRunes_append]
    simp [encodeRunes_cons, encodeRunes_nil]
  · intro r hm
    rcases List.mem_append.mp hm with hm | hm
    · exact hr.scalar r hm
    · rw [List.mem_singleton.mp hm]; exact decode_isScalar k

theorem popKey_resizes {rs evs : List Ev} (h : resizesIn rs = rs) :
    popKey (rs ++ evs) = (popKey evs).map fun p => (p.1, rs ++ p.2) := by
  induction rs with
  | nil => simp
  | cons r rs ih =>
    cases r with
    | resize w =>
      have h' : resizesIn rs = rs := by simpa [resizesIn] using h
      rw [List.cons_append, popKey, ih h']
      cases popKey evs <;> rfl
    | key k =>
      exfalso
      have : (resizesIn (.key k :: rs)).length ≤ rs.length := by
        rw [resizesIn]
        clear ih h
        induction rs with
        | nil => simp [resizesIn]
        | cons a l ih => cases a <;> simp [resizesIn] <;> omega
      rw [h] at this; simp at this; omega
    | err k =>
      exfalso
      have : (resizesIn (.err k :: rs)).length ≤ rs.length := by
        rw [resizesIn]
        clear ih h
        induction rs with
        | nil => simp [resizesIn]
        | cons a l ih => cases a <;> simp [resizesIn] <;> omega
      rw [h] at this; simp at this; omega

theorem popKey_key (k : Bytes) (rest : List Ev) : popKey (.key k :: rest) = some (.key k, rest) := by
  simp [popKey]

theorem resizesIn_append (a c : List Ev) : resizesIn (a ++ c) = resizesIn a ++ resizesIn c := by
  induction a with
  | nil => rfl
  | cons x a ih => cases x <;> simp [resizesIn, ih]

theorem resizesIn_idem (a : List Ev) : resizesIn (resizesIn a) = resizesIn a := by
  induction a with
  | nil => rfl
  | cons x a ih => cases x <;> simp [resizesIn, ih]

theorem searchLoop_keys {E : Env} (evs : List Ev) (rs fin : List Ev) {it : ISt} {h : Hunt} (hr : HRel E it h)
    (e : Ed) (hrs : resizesIn rs = rs) (he : e.input = rs ++ (evs ++ fin)) (hn : NoErr evs)
    (hi : Inside (keysIn evs)) (n : Nat) (hlen : (keysIn evs).length ≤ n) :
    ∃ it', HRel E it' ((keysIn evs).foldl (Hunt.key E) h) ∧
      Ed.searchLoop E.logic n it e = Ed.searchLoop E.logic (n - (keysIn evs).length) it'
        { e with input := rs ++ resizesIn evs ++ fin } := by
  induction evs generalizing rs it h e n with
  | nil =>
    refine ⟨it, hr, ?_⟩
    have : e = { e with input := rs ++ resizesIn [] ++ fin } := by
      rw [List.nil_append] at he
      simp only [resizesIn, List.append_nil, ← he]
    rw [← this]; rfl
  | cons x evs ih =>
    have hn' : NoErr evs := fun y hy => hn y (List.mem_cons_of_mem _ hy)
    cases x with
    | err y => exact absurd List.mem_cons_self (hn y)
    | resize w =>
      have := ih (rs ++ [.resize w]) hr e (by rw [resizesIn_append, hrs]; rfl)
        (by rw [he]; simp) hn' hi n hlen
      rw [resizesIn, keysIn]
      simpa using this
    | key k =>
      rw [keysIn] at hi hlen
      obtain ⟨n, rfl⟩ : ∃ m, n = m + 1 := ⟨n - 1, by simp at hlen; omega⟩
      have hg : Ed.getKey e = (some k, { e with input := rs ++ (evs ++ fin) }) := by
        unfold Ed.getKey
        rw [he, popKey_resizes hrs, List.cons_append, popKey_key]
        rfl
      obtain ⟨it1, hr1, h1⟩ := searchLoop_key hr (hi k List.mem_cons_self) hg n
      obtain ⟨it2, hr2, h2⟩ := ih rs hr1 { e with input := rs ++ (evs ++ fin) } hrs rfl hn'
        (fun k hk => hi k (List.mem_cons_of_mem _ hk)) n (by simp at hlen; omega)
      refine ⟨it2, hr2, ?_⟩
      rw [h1, h2, keysIn, List.length_cons, resizesIn]
      congr 1
      omega

theorem hunt_start (E : Env) :
    HRel E { lastPos := Ed.histLen E.logic - 1 } { pos := E.history.length - 1 } where
  text := rfl
  scalar := fun _ h => nomatch h
  shown := rfl
  pos := fun h => ⟨by show (E.history.length : Int) - 1 = ((E.history.length - 1 : Nat) : Int); omega, by show E.history.length - 1 < E.history.length; omega⟩
  empty := fun h => ⟨by show (E.history.length : Int) - 1 = _; omega, by show E.history.length - 1 = 0; omega⟩

/-- The whole command up to the key that ends it. -/
theorem search_upto {E : Env} {evs fin : List Ev} (e : Ed) (he : e.input = evs ++ fin) (hn : NoErr evs)
    (hi : Inside (keysIn evs)) :
    ∃ it n, fin.length < n ∧ it.found = (hunt E (keysIn evs)).shown ∧
      (Ed.call E.logic .isearchBackward e).1 =
        Ed.searchLoop E.logic n it { e with input := resizesIn evs ++ fin } := by
  have hk : ∀ evs : List Ev, (keysIn evs).length ≤ evs.length := by
    intro evs
    induction evs with
    | nil => simp [keysIn]
    | cons x evs ih => cases x <;> simp [keysIn] <;> omega
  have hlen : e.input.length = evs.length + fin.length := by rw [he, List.length_append]
  have hk' := hk evs
  obtain ⟨it, h1, h2⟩ := searchLoop_keys evs [] fin (hunt_start E) e rfl he hn hi (e.input.length + 1)
    (by omega)
  exact ⟨it, e.input.length + 1 - (keysIn evs).length, by omega, h1.shown, h2⟩

theorem getKey_resizes {e : Ed} {evs rest : List Ev} {k : Bytes}
    (he : e.input = resizesIn evs ++ .key k :: rest) :
    Ed.getKey e = (some k, { e with input := resizesIn evs ++ rest }) := by
  unfold Ed.getKey
  rw [he, popKey_resizes (resizesIn_idem evs), popKey_key]
  rfl

/-- Enter replaces the whole line by the line shown; the cursor is at its end. -/
theorem C18_enter {E : Env} {s s' : St} {k cr : Bytes} {evs rest : List Ev} (hb : BuiltinKeys E)
    (hin : s.input = .key k :: (evs ++ .key cr :: rest)) (hk : lookupCommand E k = .isearchBackward)
    (hn : NoErr evs) (hi : Inside (keysIn evs)) (hcr : takes cr) (h : step E s = .ok (s', none)) :
    At s' (unitsOf E.cfg (hunt E (keysIn evs)).shown) [] ∧ s'.clip = s.clip ∧
      s'.input = resizesIn evs ++ rest ∧
      s'.undoes = { pos := 0, del := (unitsOf E.cfg (hunt E (keysIn evs)).shown).length, text := s.text }
        :: s.undoes := by
  have ho := (step_obs hb hin h).1
  rw [hk] at ho
  obtain ⟨it, n, hlt, hf, hc⟩ := search_upto { s.ed with input := evs ++ .key cr :: rest } rfl hn hi
  obtain ⟨n, rfl⟩ : ∃ m, n = m + 1 := ⟨n - 1, by omega⟩
  rw [hc, Ed.searchLoop, getKey_resizes rfl] at ho
  have cd : b "\x0d" = [0x0D] := by decide +kernel
  have hcr' : cr = [0x0D] := by rw [← cd]; exact hcr
  dsimp only at ho
  rw [if_neg (by rw [hcr']; decide), if_pos hcr', hf] at ho
  generalize hshown : (hunt E (keysIn evs)).shown = t at ho ⊢
  have hu : (segs E.cfg t).length = (unitsOf E.cfg t).length := by rw [← segs_units]; simp
  refine ⟨?_, ho.clip.trans ?_, ho.input.trans ?_, ho.undoes.trans ?_⟩
  · have := ho.at (l := segs E.cfg t) (r := []) (Ed.At.replace (l := []) (m := []) (r := []) ⟨rfl, rfl⟩)
    rw [segs_units] at this
    exact this
  · unfold Ed.replace Ed.delete Ed.insert
    simp [St.ed]
  · unfold Ed.replace Ed.delete Ed.insert
    simp [St.ed]
  · unfold Ed.replace Ed.delete Ed.insert
    simp only [Ed.predict_undoes]
    rw [if_pos (by left; omega)]
    dsimp only
    rw [Ed.joinUndoes]
    have h1 : E.logic.cfg = E.cfg := rfl
    have h2 : lineText s.line = s.text := (St.text_eq s).symm
    by_cases ht : s.text = []
    · simp [St.ed, Ed.text, h1, hu, h2, ht]
    · simp [St.ed, Ed.text, h1, hu, h2, ht]

/-- Escape, Ctrl-C and Ctrl-G leave everything as it was. -/
theorem C18_cancel {E : Env} {s s' : St} {k x : Bytes} {evs rest : List Ev} (hb : BuiltinKeys E)
    (hin : s.input = .key k :: (evs ++ .key x :: rest)) (hk : lookupCommand E k = .isearchBackward)
    (hn : NoErr evs) (hi : Inside (keysIn evs)) (hx : givesUp x) (h : step E s = .ok (s', none)) :
    s'.units = s.units ∧ s'.cursor = s.cursor ∧ s'.undoes = s.undoes ∧ s'.clip = s.clip ∧
      s'.pending = s.pending ∧ s'.histPtr = s.histPtr ∧ s'.input = resizesIn evs ++ rest := by
  have ho := (step_obs hb hin h).1
  rw [hk] at ho
  obtain ⟨it, n, hlt, hf, hc⟩ := search_upto { s.ed with input := evs ++ .key x :: rest } rfl hn hi
  obtain ⟨n, rfl⟩ : ∃ m, n = m + 1 := ⟨n - 1, by omega⟩
  rw [hc, Ed.searchLoop, getKey_resizes rfl] at ho
  have c3 : b "\x03" = [0x03] := by decide +kernel
  have c7 : b "\x07" = [0x07] := by decide +kernel
  have c1b : b "\x1b" = [0x1B] := by decide +kernel
  have hx' : x = [0x03] ∨ x = [0x07] ∨ x = [0x1B] := by rw [← c3, ← c7, ← c1b]; exact hx
  dsimp only at ho
  rw [if_neg (by rcases hx' with h | h | h <;> rw [h] <;> decide),
    if_neg (by rcases hx' with h | h | h <;> rw [h] <;> decide), if_pos hx'] at ho
  refine ⟨?_, ho.cursor, ho.undoes, ho.clip, ho.pending, ho.histPtr, ho.input⟩
  rw [ho.units, St.units_eq]
  rfl

/-- So does the end of the input. -/
theorem C18_eof {E : Env} {s s' : St} {k : Bytes} {evs : List Ev} (hb : BuiltinKeys E)
    (hin : s.input = .key k :: evs) (hk : lookupCommand E k = .isearchBackward)
    (hn : NoErr evs) (hi : Inside (keysIn evs)) (h : step E s = .ok (s', none)) :
    s'.units = s.units ∧ s'.cursor = s.cursor ∧ s'.undoes = s.undoes := by
  have ho := (step_obs hb hin h).1
  rw [hk] at ho
  obtain ⟨it, n, hlt, hf, hc⟩ := search_upto (evs := evs) (fin := []) { s.ed with input := evs }
    (by simp) hn hi
  obtain ⟨n, rfl⟩ : ∃ m, n = m + 1 := ⟨n - 1, by simp at hlt; omega⟩
  have hg : Ed.getKey { s.ed with input := resizesIn evs ++ [] } =
      (none, { s.ed with input := resizesIn evs ++ [] }) := by
    unfold Ed.getKey
    dsimp only
    rw [popKey_resizes (resizesIn_idem evs), popKey]
    rfl
  rw [hc, Ed.searchLoop] at ho
  dsimp only at ho
  rw [hg] at ho
  refine ⟨?_, ho.cursor, ho.undoes⟩
  rw [ho.units, St.units_eq]
  rfl

theorem Ed.undo_whole {L : Logic} {e : Ed} {us : List Undo} {t : Bytes}
    (h : e.undoes = { pos := 0, del := e.line.length, text := t } :: us) :
    (Ed.undo L e).line = segs L.cfg t ∧ (Ed.undo L e).undoes = us := by
  have hl : (if e.line.length > 0 then
      e.line.take (0 : Int).toNat ++ e.line.drop ((0 : Int).toNat + e.line.length) else e.line) = [] := by
    split
    · simp
    · exact List.eq_nil_of_length_eq_zero (by omega)
  unfold Ed.undo
  rw [h]
  dsimp only
  rw [hl]
  by_cases ht : t = []
  · subst ht
    simp [Ed.predict_undoes, Ed.predict_line, segs_nil]
  · simp [Ed.predict_undoes, Ed.predict_line, ht]

/-- One Undo after Enter brings the old line back.  Missing: lines with loose joiners. -/
theorem C18_undo_partial {E : Env} {w : World} {s s' t : St} {k cr : Bytes} {evs rest : List Ev}
    (hb : BuiltinKeys E) (hre : Reachable E w s) (ht : Tidy E.cfg s)
    (hin : s.input = .key k :: (evs ++ .key cr :: rest)) (hk : lookupCommand E k = .isearchBackward)
    (hn : NoErr evs) (hi : Inside (keysIn evs)) (hcr : takes cr) (h : step E s = .ok (s', none))
    (hu : Undos E s' 1 t) : t.units = s.units ∧ t.undoes = s.undoes := by
  obtain ⟨hat, -, -, hlog⟩ := C18_enter hb hin hk hn hi hcr h
  have h0 : ∀ {t n}, Undos E s' n t → n = 0 → t.units = s'.units ∧ t.undoes = s'.undoes := by
    intro t n hu
    induction hu with
    | none => intro _; exact ⟨rfl, rfl⟩
    | resize _ hi hst ih =>
      intro hn
      have ho := resize_obs hi hst
      obtain ⟨i1, i2⟩ := ih hn
      exact ⟨by rw [ho.units, ← i1, St.units_eq]; rfl, by rw [ho.undoes, ← i2]; rfl⟩
    | undo => intro hn; omega
  have h1 : ∀ {t n}, Undos E s' n t → n = 1 → t.units = s.units ∧ t.undoes = s.undoes := by
    intro t n hu
    induction hu with
    | none => intro hn; omega
    | resize _ hi hst ih =>
      intro hn
      have ho := resize_obs hi hst
      obtain ⟨i1, i2⟩ := ih hn
      exact ⟨by rw [ho.units, ← i1, St.units_eq]; rfl, by rw [ho.undoes, ← i2]; rfl⟩
    | @undo n t t' k rest hu hi hk hst _ =>
      intro hn
      obtain ⟨i1, i2⟩ := h0 hu (by omega)
      have ho := (step_obs hb hi hst).1
      rw [hk] at ho
      rw [hlog] at i2
      have hlen : t.line.length = (unitsOf E.cfg (hunt E (keysIn evs)).shown).length := by
        have := congrArg List.length (i1.trans hat.units)
        rw [St.units_eq] at this
        simpa using this
      have hseg : segs E.cfg s.text = s.line := by
        have hbuilt := reachable_built hb hre
        have := segs_slice hbuilt (tailTidy_of hbuilt ht) 0 s.line.length
        simp at this
        rw [St.text_eq, this]
      rw [← hlen] at i2
      obtain ⟨j1, j2⟩ := Ed.undo_whole (L := E.logic) (e := { t.ed with input := rest }) i2
      refine ⟨?_, ho.undoes.trans j2⟩
      rw [ho.units]
      show List.map Moji.write (Ed.undo E.logic { t.ed with input := rest }).line = _
      rw [j1, St.units_eq, ← hseg]
      rfl
  exact h1 hu rfl

/-- After a typed character or a Backspace the line shown is the newest entry that contains the
text ignoring case; it is empty if there is none. -/
theorem C18_newest (E : Env) (ks : List Bytes) (k : Bytes)
    (hk : k = b "\x08" ∨ k = b "\x7f" ∨ ¬ isCtl (decodeRune k).1) :
    let h := hunt E (ks ++ [k])
    (∃ i : Nat, E.history[i]? = some h.shown ∧ occurs E.toUpper (encodeRunes h.text) h.shown = true ∧
      ∀ (j : Nat) l, i < j → E.history[j]? = some l → occurs E.toUpper (encodeRunes h.text) l = false) ∨
    (h.shown = [] ∧ ∀ l ∈ E.history, occurs E.toUpper (encodeRunes h.text) l = false) := by
  have hnew : ∃ g, hunt E (ks ++ [k]) = Hunt.newest E g := by
    unfold hunt
    rw [List.foldl_append, List.foldl_cons, List.foldl_nil]
    generalize List.foldl (Hunt.key E) { pos := E.history.length - 1 } ks = g
    unfold Hunt.key
    by_cases h1 : k = b "\x08" ∨ k = b "\x7f"
    · rw [if_pos h1]; exact ⟨_, rfl⟩
    · have h2 : ¬ isCtl (decodeRune k).1 := by
        rcases hk with h | h | h
        · exact absurd (Or.inl h) h1
        · exact absurd (Or.inr h) h1
        · exact h
      rw [if_neg h1, if_neg (by rintro rfl; exact h2 (by decide +kernel)),
        if_neg (by rintro rfl; exact h2 (by decide +kernel)), if_neg h2]
      exact ⟨_, rfl⟩
  obtain ⟨g, hg⟩ := hnew
  rw [hg]
  dsimp only
  unfold Hunt.newest Hunt.first
  cases hf : List.find? (fun i => occurs E.toUpper (encodeRunes g.text) (E.history.getD i []))
      (List.range E.history.length).reverse with
  | none =>
    right
    refine ⟨rfl, ?_⟩
    intro l hl
    obtain ⟨i, hi, rfl⟩ := List.getElem_of_mem hl
    have := List.find?_eq_none.mp hf i (by simp [hi])
    rw [List.getD_eq_getElem?_getD, List.getElem?_eq_getElem hi] at this
    simpa using this
  | some i =>
    left
    have h1 := List.find?_some hf
    obtain ⟨-, as, bs, hsplit, hno⟩ := List.find?_eq_some_iff_append.mp hf
    have hlt : i < E.history.length := by
      have : i ∈ (List.range E.history.length).reverse := List.mem_of_find?_eq_some hf
      simpa using this
    refine ⟨i, ?_, h1, ?_⟩
    · simp [List.getD_eq_getElem?_getD, List.getElem?_eq_getElem hlt]
    · intro j l hj hl
      have hjlt : j < E.history.length := (List.getElem?_eq_some_iff.mp hl).1
      have hmem : j ∈ as := by
        have h2 : j ∈ as ++ i :: bs := by rw [← hsplit]; simp [hjlt]
        rcases List.mem_append.mp h2 with h | h
        · exact h
        · exfalso
          have hs : (as ++ i :: bs).Pairwise (· > ·) := by
            rw [← hsplit, List.pairwise_reverse]
            exact List.pairwise_lt_range
          have h3 := (List.pairwise_append.mp hs).2.1
          rcases List.mem_cons.mp h with h | h
          · omega
          · have := (List.pairwise_cons.mp h3).1 j h
            omega
      have := hno j hmem
      rw [List.getD_eq_getElem?_getD, hl] at this
      simpa using this

theorem first_matches {E : Env} {h : Hunt} {is : List Nat} {f : Bytes → Bool} {g : Hunt}
    (hlt : ∀ i ∈ is, i < E.history.length) (hg : h.first E is f = some g) :
    g.shown ∈ E.history ∧ f g.shown = true ∧ g.text = h.text ∧ g.pos < E.history.length := by
  unfold Hunt.first at hg
  rw [Option.map_eq_some_iff] at hg
  obtain ⟨i, hf, rfl⟩ := hg
  have hi := hlt i (List.mem_of_find?_eq_some hf)
  have hf2 := List.find?_some hf
  refine ⟨?_, hf2, rfl, hi⟩
  simp [List.getD_eq_getElem?_getD, List.getElem?_eq_getElem hi]

/-- Whatever is typed, Ctrl-R and Ctrl-S included, the line shown is empty or an entry that
contains the text. -/
theorem C18_found (E : Env) (ks : List Bytes) :
    let h := hunt E ks
    h.shown = [] ∨ (h.shown ∈ E.history ∧ occurs E.toUpper (encodeRunes h.text) h.shown = true) := by
  have key : ∀ (h : Hunt) (k : Bytes),
      ((h.shown = [] ∨ (h.shown ∈ E.history ∧ occurs E.toUpper (encodeRunes h.text) h.shown = true)) ∧
        (h.pos < E.history.length ∨ h.pos = 0)) →
      (((h.key E k).shown = [] ∨ ((h.key E k).shown ∈ E.history ∧
        occurs E.toUpper (encodeRunes (h.key E k).text) (h.key E k).shown = true)) ∧
        ((h.key E k).pos < E.history.length ∨ (h.key E k).pos = 0)) := by
    intro h k hh
    have hnew : ∀ g : Hunt, (g.pos < E.history.length ∨ g.pos = 0) →
        (((g.newest E).shown = [] ∨ ((g.newest E).shown ∈ E.history ∧
        occurs E.toUpper (encodeRunes (g.newest E).text) (g.newest E).shown = true)) ∧
        ((g.newest E).pos < E.history.length ∨ (g.newest E).pos = 0)) := by
      intro g hp
      unfold Hunt.newest
      cases hf : g.first E (List.range E.history.length).reverse
          (occurs E.toUpper (encodeRunes g.text)) with
      | none => exact ⟨Or.inl rfl, hp⟩
      | some g' =>
        obtain ⟨h1, h2, h3, h4⟩ := first_matches (by simp) hf
        dsimp only [Option.getD_some]
        rw [h3]
        exact ⟨Or.inr ⟨h1, h2⟩, Or.inl h4⟩
    have hoth : ∀ is, (∀ i ∈ is, i < E.history.length) →
        (((h.other E is).shown = [] ∨ ((h.other E is).shown ∈ E.history ∧
        occurs E.toUpper (encodeRunes (h.other E is).text) (h.other E is).shown = true)) ∧
        ((h.other E is).pos < E.history.length ∨ (h.other E is).pos = 0)) := by
      intro is his
      unfold Hunt.other
      cases hf : h.first E is (fun line =>
          occurs E.toUpper (encodeRunes h.text) line && decide (h.shown ≠ line)) with
      | none => exact hh
      | some g' =>
        obtain ⟨h1, h2, h3, h4⟩ := first_matches his hf
        dsimp only [Option.getD_some]
        rw [h3]
        simp only [Bool.and_eq_true] at h2
        exact ⟨Or.inr ⟨h1, h2.1⟩, Or.inl h4⟩
    unfold Hunt.key
    split
    · exact hnew _ hh.2
    · split
      · apply hoth
        intro i hi
        have := hh.2
        simp [olderThan, List.mem_range'] at hi
        omega
      · split
        · apply hoth
          intro i hi
          simp [newerThan, List.mem_range'] at hi
          omega
        · split
          · exact hh
          · exact hnew _ hh.2
  have : ∀ (h : Hunt), ((h.shown = [] ∨ (h.shown ∈ E.history ∧ occurs E.toUpper (encodeRunes h.text) h.shown = true)) ∧
        (h.pos < E.history.length ∨ h.pos = 0)) →
      ((ks.foldl (Hunt.key E) h).shown = [] ∨ ((ks.foldl (Hunt.key E) h).shown ∈ E.history ∧
        occurs E.toUpper (encodeRunes (ks.foldl (Hunt.key E) h).text) (ks.foldl (Hunt.key E) h).shown = true)) := by
    induction ks with
    | nil => intro h hh; exact hh.1
    | cons k ks ih => intro h hh; exact ih _ (key h k hh)
  exact this _ ⟨Or.inl rfl, by show E.history.length - 1 < E.history.length ∨ E.history.length - 1 = 0; omega⟩

section
open Example

private def E : Env := { env plain with history := [b "make", b "git add", b "ls", b "git push"],
                                        toUpper := fun t => t.map fun c => if 97 ≤ c ∧ c ≤ 122 then c - 32 else c }

/-- Ctrl-R, `GI`, Ctrl-R, Enter: the second newest line with `gi` in it; Undo brings `x` back. -/
example :
    let w : World := { input := keys ["x", "\x12", "G", "I", "\x12", "\x0d", "\x1a"] }
    [look (after E w 1), look (after E w 2), look (after E w 3)] =
    [.inr ([b "x"], 1, 0), .inr ((b "git add").map (fun c => [c]), 7, 0), .inr ([b "x"], 1, 0)] := by
  decide +kernel

/-- Ctrl-R, `gi`, Backspace twice, `m`, then Escape or Enter. -/
example :
    [look (after E { input := keys ["x", "\x12", "g", "i", "\x08", "\x08", "m", "\x1b"] } 2),
     look (after E { input := keys ["x", "\x12", "g", "i", "\x08", "\x08", "m", "\x0d"] } 2)] =
    [.inr ([b "x"], 1, 0), .inr ((b "make").map (fun c => [c]), 4, 0)] := by
  decide +kernel

/-- A search for nothing shows nothing: Ctrl-R and Enter empty the line. -/
example : look (after E { input := keys ["x", "\x12", "\x0d"] } 2) = .inr ([], 0, 0) := by
  decide +kernel

example : hunt E [b "g", b "i", b "\x12", b "\x13", b "\x08"] =
    { text := [103], shown := b "git push", pos := 3 } := by decide +kernel

/-- **Refuted** for a line with a loose joiner: U+200D is typed first, then `a` before it; a search, Enter and
Undo give `a`, U+200D and U+FFFD. -/
theorem C18_refuted_undo :
    let w : World := { input := keys ["\u200d", "\x01", "a", "\x12", "x", "\x0d", "\x1a"] }
    let E : Env := { env full with history := [b "xyz"] }
    [look (after E w 3), look (after E w 4), look (after E w 5)] =
    [.inr ([b "a", b "\u200d"], 1, 0), .inr ([b "x", b "y", b "z"], 3, 0),
     .inr ([b "a\u200d\ufffd"], 1, 0)] := by decide +kernel

end
end Readline
