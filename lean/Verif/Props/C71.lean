import Verif.Proof.Trim
import Verif.Props.C20
import Verif.Props.C62
import Verif.Props.C70
/-!
# C71: the predictor that ignores blanks at the ends

examples/example160.go predicts what the newest line goes on with that begins with the line now shown, blanks at the ends of either
left aside.  `C71_trim`: `TrimSpace` takes exactly the blanks off.  `C71_predict`: what is predicted, for every history
and every line.  `C71_shown`: the prediction stored at any time of a session is that one.  `C71_accept_partial`: accepting
it makes of the line the history line, blanks at the ends aside, exactly if there is no blank behind what was typed
(or nothing else was typed, or nothing is predicted).  `C71_refuted`: with a blank typed behind, the accepted line is another one.
`C71_program`: in the program of the example, starting without history, the lines are always text.
-/
namespace Readline
open Spec

variable {E : Env} {w : World} {s s' : St} {history : List Bytes}

/-- `TrimSpace` takes the blanks off both ends; there is only one way to do so. -/
theorem C71_trim (t u : Bytes) : Stripped t u ↔ trimSpace t = u :=
  ⟨stripped_eq, fun h => h ▸ trimSpace_ok t⟩

theorem predictTrimmedLoop_ok (u : Bytes) (hs : List Bytes) :
    (∃ newer line older, hs = newer ++ line :: older ∧ Stripped line (u ++ predictTrimmedLoop u hs) ∧
      ∀ h ∈ newer, ∀ v, Stripped h v → ¬ u <+: v) ∨
    ((∀ h ∈ hs, ∀ v, Stripped h v → ¬ u <+: v) ∧ predictTrimmedLoop u hs = []) := by
  induction hs with
  | nil => exact Or.inr ⟨by simp, rfl⟩
  | cons x hs ih =>
    unfold predictTrimmedLoop
    dsimp only
    by_cases h : u.isPrefixOf (trimSpace x) = true
    · rw [if_pos h]
      obtain ⟨v, hv⟩ := List.isPrefixOf_iff_prefix.mp h
      refine Or.inl ⟨[], x, hs, rfl, ?_, by simp⟩
      rw [← hv, List.drop_left' rfl, hv]
      exact trimSpace_ok x
    · rw [if_neg h]
      have hx : ∀ v, Stripped x v → ¬ u <+: v := by
        intro v hv hp
        rw [← stripped_eq hv] at hp
        exact h (List.isPrefixOf_iff_prefix.mpr hp)
      rcases ih with ⟨newer, line, older, rfl, h1, h2⟩ | ⟨h1, h2⟩
      · refine Or.inl ⟨x :: newer, line, older, rfl, h1, ?_⟩
        intro y hy
        rcases List.mem_cons.mp hy with rfl | hy
        · exact hx
        · exact h2 y hy
      · refine Or.inr ⟨?_, h2⟩
        intro y hy
        rcases List.mem_cons.mp hy with rfl | hy
        · exact hx
        · exact h1 y hy

/-- What is predicted: the rest of the newest line that begins as the line does, nothing if there is none. -/
theorem C71_predict (history : List Bytes) {text u : Bytes} (hu : Stripped text u) :
    Continues history u (predictTrimmed history text) ∨
    ((∀ h ∈ history, ∀ v, Stripped h v → ¬ u <+: v) ∧ predictTrimmed history text = []) := by
  unfold predictTrimmed
  rw [stripped_eq hu]
  rcases predictTrimmedLoop_ok u history.reverse with ⟨newer, line, older, e, h1, h2⟩ | ⟨h1, h2⟩
  · refine Or.inl ⟨older.reverse, line, newer.reverse, ?_, h1, ?_⟩
    · have := congrArg List.reverse e
      simpa using this
    · intro h hh
      exact h2 h (List.mem_reverse.mp hh)
  · refine Or.inr ⟨?_, h2⟩
    intro h hh
    exact h1 h (List.mem_reverse.mpr hh)

theorem example160_predict (E : Env) (t : Bytes) : (example160 E history).predict t = predictTrimmed history t := rfl

theorem example160_color (E : Env) : (example160 E history).predictColor.1 ≠ [] := by
  show ([0x1B, 0x5B, 0x33, 0x3B, 0x32, 0x32, 0x3B, 0x33, 0x34, 0x6D] : Bytes) ≠ []
  simp

/-- At any time of a session without the commands that keep an old prediction (see C20), the prediction is that for the line. -/
theorem C71_shown (hb : BuiltinKeys (example160 E history))
    (hk : ∀ k, Ev.key k ∈ w.input → stales (lookupCommand (example160 E history) k) = false)
    (hr : Reachable (example160 E history) w s) {u : Bytes} (hu : Stripped s.text u) :
    (s.units = [] → s.suffix = none) ∧
    (s.units ≠ [] → ∃ rest, s.suffix = some (stringToMoji E.cfg rest) ∧
      (Continues history u rest ∨ (∀ h ∈ history, ∀ v, Stripped h v → ¬ u <+: v) ∧ rest = [])) := by
  have h := (C20_fresh_partial hb (example160_color E) hk hr).1
  constructor
  · intro h0
    rw [h, if_pos h0]
  · intro h0
    rw [if_neg h0, example160_predict] at h
    exact ⟨_, h, C71_predict history hu⟩

/-! ## Accepting -/

theorem text_cancel_front {cs ds : List Char} {x : Bytes} (h : utf8 cs ++ x = utf8 ds) : ∃ es, ds = cs ++ es ∧ x = utf8 es := by
  induction cs generalizing ds with
  | nil => exact ⟨ds, rfl, h⟩
  | cons c cs ih =>
    rw [utf8_more, List.append_assoc] at h
    cases ds with
    | nil =>
      have := congrArg List.length h
      rw [List.length_append] at this
      have hpos : 0 < (utf8 [c]).length := List.length_pos_iff.mpr (utf8_one_ne c)
      have h0 : (utf8 []).length = 0 := rfl
      omega
    | cons d ds =>
      rw [utf8_more d ds] at h
      have h1 := congrArg decodeRune h
      rw [decode_front, decode_front] at h1
      have : c = d := Char.toNat_inj.mp (congrArg Prod.fst h1)
      subst this
      obtain ⟨es, rfl, rfl⟩ := ih (List.append_cancel_left h)
      exact ⟨es, rfl, rfl⟩

theorem text_cancel_behind {cs ds : List Char} {x : Bytes} (h : x ++ utf8 cs = utf8 ds) : ∃ es, ds = es ++ cs ∧ x = utf8 es := by
  induction cs generalizing x ds with
  | nil => exact ⟨ds, by simp, by simpa [utf8] using h⟩
  | cons c cs ih =>
    rw [utf8_more, ← List.append_assoc] at h
    obtain ⟨es, rfl, he⟩ := ih h
    rcases List.eq_nil_or_concat es with rfl | ⟨es', d, rfl⟩
    · have := congrArg List.length he
      rw [List.length_append] at this
      have hpos : 0 < (utf8 [c]).length := List.length_pos_iff.mpr (utf8_one_ne c)
      have h0 : (utf8 []).length = 0 := rfl
      omega
    · rw [List.concat_eq_append] at *
      have e : utf8 (es' ++ [d]) = utf8 es' ++ utf8 [d] := by simp [utf8]
      rw [e] at he
      have h1 := congrArg decodeLastRune he
      rw [decode_behind, decode_behind] at h1
      have : c = d := Char.toNat_inj.mp (congrArg Prod.fst h1)
      subst this
      exact ⟨es', by simp, List.append_cancel_right he⟩

theorem stripped_text {t u : Bytes} {cs : List Char} (h : Stripped t u) (ht : t = utf8 cs) : ∃ ds, u = utf8 ds ∧ ds <:+: cs := by
  obtain ⟨⟨a, z, -, -, e⟩, -⟩ := h
  rw [ht] at e
  obtain ⟨es, rfl, h1⟩ := text_cancel_behind e.symm
  obtain ⟨ds, rfl, h2⟩ := text_cancel_front h1
  exact ⟨ds, h2, ⟨a, z, rfl⟩⟩

/-- What is predicted is text without join controls if the history is. -/
theorem predicted_text (hv : ∀ h ∈ history, ∃ cs, h = utf8 cs ∧ (C.zwjOk = false ∨ '‌' ∉ cs ∧ '‍' ∉ cs))
    {u rest : Bytes} {us : List Char} (hu : u = utf8 us) (h : Continues history u rest) :
    ∃ cs, rest = utf8 cs ∧ Whole C cs := by
  obtain ⟨older, line, newer, rfl, h1, -⟩ := h
  obtain ⟨ls, hl, hj⟩ := hv line (by simp)
  obtain ⟨ds, e, hi⟩ := stripped_text h1 hl
  rw [hu] at e
  obtain ⟨cs, rfl, rfl⟩ := text_cancel_front e
  refine ⟨cs, rfl, ?_⟩
  unfold Whole
  rcases hj with hj | ⟨h2, h3⟩
  · exact Or.inl hj
  · have hm : ∀ c ∈ cs, c ∈ ls := fun c hc => hi.subset (List.mem_append_right us hc)
    exact Or.inr ⟨fun hc => h2 (hm _ hc), fun hc => h3 (hm _ (List.mem_of_getLast? hc))⟩

theorem newest_alike {p : Bytes → Prop} {o o' n n' : List Bytes} {x x' : Bytes} (e : o ++ x :: n = o' ++ x' :: n')
    (hx : p x) (hx' : p x') (hn : ∀ h ∈ n, ¬ p h) (hn' : ∀ h ∈ n', ¬ p h) : x = x' := by
  rcases List.append_eq_append_iff.mp e with ⟨d, e1, e2⟩ | ⟨d, e1, e2⟩
  · cases d with
    | nil => exact (List.cons.inj e2).1
    | cons y d =>
      have := (List.cons.inj e2).2
      exact absurd hx' (hn x' (by rw [this]; simp))
  · cases d with
    | nil => exact (List.cons.inj e2).1.symm
    | cons y d =>
      have := (List.cons.inj e2).2
      exact absurd hx (hn' x (by rw [this]; simp))

/-- **C71**, accepting the prediction: the line becomes the newest line that begins as it does, blanks at the ends aside,
exactly if no blanks have been typed behind, or nothing but blanks has been typed, or nothing is predicted. -/
theorem C71_accept_partial (hb : BuiltinKeys (example160 E history))
    (hk : ∀ k, Ev.key k ∈ w.input → stales (lookupCommand (example160 E history) k) = false)
    (hv : ∀ h ∈ history, ∃ cs, h = utf8 cs ∧ (E.cfg.zwjOk = false ∨ '‌' ∉ cs ∧ '‍' ∉ cs))
    (hr : Reachable (example160 E history) w s) {k : Bytes} {more : List Ev} {o : Option RLRes}
    (hi : s.input = .key k :: more) (hc : lookupCommand (example160 E history) k = .forwardChar)
    (hcur : s.cursor = s.units.length) (hne : s.units ≠ []) (hst : step (example160 E history) s = .ok (s', o))
    {u rest : Bytes} {a z : List Char} (ha : ∀ c ∈ a, White c) (hz : ∀ c ∈ z, White c) (ht : s.text = utf8 a ++ u ++ utf8 z)
    (hu : Stripped s.text u) (hcon : Continues history u rest) :
    o = none ∧ s'.text = s.text ++ rest ∧ s'.cursor = s'.units.length ∧
    (Stripped s'.text (u ++ rest) ↔ z = [] ∨ u = [] ∨ rest = []) := by
  obtain ⟨ts, hts⟩ := C70_line s
  obtain ⟨us, hus, -⟩ := stripped_text hu hts
  obtain ⟨cs, hcs, hw⟩ := predicted_text hv hus hcon
  have hpr : predictTrimmed history s.text = rest := by
    obtain ⟨older, line, newer, e, h1, h2⟩ := hcon
    rcases C71_predict history hu with ⟨older', line', newer', e', h1', h2'⟩ | ⟨h1', -⟩
    · have : line = line' := newest_alike (p := fun x => ∃ v, Stripped x v ∧ u <+: v) (e.symm.trans e')
        ⟨_, h1, List.prefix_append _ _⟩ ⟨_, h1', List.prefix_append _ _⟩
        (fun h hh ⟨v, hv, hp⟩ => h2 h hh v hv hp) (fun h hh ⟨v, hv, hp⟩ => h2' h hh v hv hp)
      subst this
      exact (List.append_cancel_left (stripped_unique h1 h1')).symm
    · exact absurd (List.prefix_append u rest) (h1' line (by simp [e]) _ h1)
  have hacc := (C20_fresh_partial hb (example160_color E) hk hr).2 k more s' o cs hi hc hcur hne
    (by rw [example160_predict, hpr, hcs]) hw hst
  rw [← hcs] at hacc
  refine ⟨hacc.1, hacc.2.1, hacc.2.2, ?_⟩
  rw [hacc.2.1]
  obtain ⟨older, line, newer, -, h1, -⟩ := hcon
  constructor
  · intro h
    by_cases hu0 : u = []
    · exact Or.inr (Or.inl hu0)
    by_cases hr0 : rest = []
    · exact Or.inr (Or.inr hr0)
    left
    have hlong : Stripped (s.text ++ rest) (u ++ utf8 z ++ rest) := by
      refine ⟨⟨a, [], ha, by simp, by rw [ht]; simp [utf8]⟩, fun c hc => ⟨fun hp => ?_, fun hp => ?_⟩⟩
      · rw [List.append_assoc, hcs, ← utf8_append_text] at hp
        exact (hu.2 c hc).1 (front_inside hu0 hp)
      · rcases List.eq_nil_or_concat cs with rfl | ⟨cs', d, rfl⟩
        · exact hr0 hcs
        · rw [List.concat_eq_append, utf8_append_text] at hcs
          obtain ⟨x, hx⟩ := hp
          rw [hcs, ← List.append_assoc] at hx
          have h2 := congrArg decodeLastRune hx
          rw [decode_behind, decode_behind] at h2
          have : c = d := Char.toNat_inj.mp (congrArg Prod.fst h2)
          subst this
          refine (h1.2 c hc).2 ?_
          rw [hcs, ← List.append_assoc]
          exact List.suffix_append _ _
    have e := stripped_unique h hlong
    rw [List.append_assoc] at e
    have e2 := congrArg List.length (List.append_cancel_left e)
    rw [List.length_append] at e2
    cases z with
    | nil => rfl
    | cons c z =>
      exfalso
      rw [utf8_more, List.length_append] at e2
      have hpos : 0 < (utf8 [c]).length := List.length_pos_iff.mpr (utf8_one_ne c)
      omega
  · rintro (h0 | h0 | h0)
    · subst h0
      exact ⟨⟨a, [], ha, by simp, by rw [ht]; simp [utf8]⟩, h1.2⟩
    · subst h0
      refine ⟨⟨a ++ z, [], ?_, by simp, by rw [ht]; simp [utf8]⟩, h1.2⟩
      intro c hc
      rcases List.mem_append.mp hc with hc | hc
      · exact ha c hc
      · exact hz c hc
    · subst h0
      simpa using hu

/-! ## The program -/

/-- In the program of the example the history consists of text. -/
theorem C71_program {n : Nat} {c : Container} {x : Container × RLErr × World} (hc : ∀ h ∈ c.buffer, ValidUtf8 h)
    (h : readLines160 E n c w = .ok x) : ∀ h ∈ x.1.buffer, ValidUtf8 h := by
  induction n generalizing c w with
  | zero => cases h
  | succ n ih =>
    rw [readLines160] at h
    obtain ⟨⟨s, r⟩, hr, h⟩ := bind_ok.mp h
    dsimp only at h
    split at h
    · refine ih ?_ h
      intro t ht
      rcases List.mem_append.mp ht with ht | ht
      · exact hc t ht
      · rw [List.mem_singleton] at ht
        subst ht
        exact C70_valid hr
    · cases pure_ok.mp h
      exact hc

/-! ## Examples -/

/-- The program of the example. -/
def Example.ran (ks : List String) : Option (List Bytes × RLErr) :=
  Example.texts (readLines160 (Example.env Example.full) (ks.length + 1) {} { input := Example.keys ks })

/-- Blanks in front of the line typed and of the history line are left aside. -/
example : Example.ran ["  git commit ", "\r", " gi", "\x06", "\r", "\x04"] = some ([b "  git commit ", b " git commit"], .eof) := by
  decide +kernel

/-- A line of nothing but blanks predicts the newest line. -/
example : Example.ran ["git commit", "\r", " ", "\x06", "\r", "\x04"] = some ([b "git commit", b " git commit"], .eof) := by
  decide +kernel

/-- The newest line that fits is taken. -/
example : Example.ran ["git a", "\r", "git b", "\r", "x", "\r", "git", "\x06", "\r", "\x04"] =
    some ([b "git a", b "git b", b "x", b "git b"], .eof) := by
  decide +kernel

/-- Blanks that are typed behind are not taken back: the blank between the words is doubled, or the word is cut. -/
theorem C71_refuted :
    Example.ran ["git commit", "\r", "git ", "\x06", "\r", "\x04"] = some ([b "git commit", b "git  commit"], .eof) ∧
    Example.ran ["git commit", "\r", "gi ", "\x06", "\r", "\x04"] = some ([b "git commit", b "gi t commit"], .eof) := by
  decide +kernel

/-- The hypotheses of `C71_accept_partial` are met: an accepting key at the end of `" gi"`. -/
example : ∃ s s', Reachable (example160 (Example.env Example.full) [b "git commit "]) { input := Example.keys [" ", "g", "i", "\x06"] } s ∧
    s.text = utf8 [' '] ++ utf8 ['g', 'i'] ++ utf8 [] ∧ s.cursor = s.units.length ∧
    step (example160 (Example.env Example.full) [b "git commit "]) s = .ok (s', none) ∧ s'.text = b " git commit" := by
  obtain ⟨s, h1, h2⟩ := gets_ok (E := example160 (Example.env Example.full) [b "git commit "])
    (w := { input := Example.keys [" ", "g", "i", "\x06"] }) (n := 3)
    (p := fun s => decide (s.text = utf8 [' '] ++ utf8 ['g', 'i'] ++ utf8 []) && decide (s.cursor = s.units.length) &&
      (match step (example160 (Example.env Example.full) [b "git commit "]) s with
      | .ok (s', none) => decide (s'.text = b " git commit")
      | _ => false)) (by decide +kernel)
  simp only [Bool.and_eq_true] at h2
  obtain ⟨⟨h3, h4⟩, h5⟩ := h2
  split at h5
  · rename_i s' he
    exact ⟨s, s', h1, of_decide_eq_true h3, of_decide_eq_true h4, he, of_decide_eq_true h5⟩
  · cases h5

end Readline
