import Verif.Proof.Pages
import Verif.Proof.Plain
import Verif.Proof.Mild
/-!
# C78: on characters that stand alone the editor is the editor of the textbook

`Spec/Textbook` is a line editor on lists of characters: two halves around the cursor, a list of lines to go back to, a
clipboard, a history.  For every sequence of keys `ReadLine` returns what it returns, and fails where it does.
-/
namespace Readline
open Spec

/-- The usual keys. -/
def Spec.usualTable : List (List Char × Verb) := [
  (['\x1b', 'b'], .wordLeft), (['\x1b', 'f'], .wordRight), (['\x1b', 'v'], .paste), (['\x1b', 'y'], .pasteQuoted),
  (['\x7f'], .backspace), (['\x01'], .home), (['\x02'], .left), (['\x03'], .interrupt), (['\x04'], .deleteOrClose),
  (['\x05'], .goEnd), (['\x06'], .right), (['\x08'], .backspace), (['\x0b'], .killRight), (['\x0c'], .redraw),
  (['\x1b', '[', '1', ';', '5', 'D'], .wordLeft), (['\x0d'], .enter), (['\x0e'], .newer), (['\x10'], .older),
  (['\x11'], .literally), (['\x12'], .search), (['\x1b', '[', '1', ';', '5', 'C'], .wordRight), (['\x14'], .exchange),
  (['\x15'], .killLeft), (['\x1f'], .undo), (['\x16'], .literally), (['\x17'], .killWord), (['\x19'], .paste),
  (['\x1a'], .undo), (['\x1b', '[', '3', '~'], .delete), (['\x1b', '[', 'B'], .newer), (['\x1b', '[', 'F'], .goEnd),
  (['\x1b'], .killAll), (['\x1b', '[', 'H'], .home), (['\x1b', '[', 'D'], .left), (['\x1b', '[', 'C'], .right),
  (['\x1b', '[', 'A'], .older)]

/-- What the usual keys stand for; every other key is typed. -/
def Spec.usualVerb (k : List Char) : Verb :=
  match usualTable.find? (fun p => p.1 == k) with
  | some p => p.2
  | none => .type k

/-- Two tables of keys with the same meaning. -/
def TableMeans : List (Bytes × Cmd) → List (List Char × Verb) → Prop
  | [], [] => True
  | p :: l, q :: m => p.1 = utf8 q.1 ∧ Means p.2 q.2 ∧ TableMeans l m
  | _, _ => False

theorem table_means : TableMeans globalTable usualTable := by
  unfold globalTable usualTable
  repeat' first | exact trivial | exact (by decide +kernel) | refine ⟨by decide +kernel, by constructor, ?_⟩

theorem means_lookup {k : List Char} (hk : k ≠ []) : ∀ {l : List (Bytes × Cmd)} {m : List (List Char × Verb)}, TableMeans l m →
    Means ((assoc l (utf8 k)).getD (.selfInsert (utf8 k)))
      (match m.find? (fun p => p.1 == k) with
        | some p => p.2
        | none => .type k)
  | [], [], _ => .type k hk
  | p :: l, q :: m, ⟨h1, h2, h3⟩ => by
    unfold assoc
    by_cases hq : q.1 = k
    · rw [List.find?_cons_of_pos (by rw [h1, hq]; simp), List.find?_cons_of_pos (by simp [hq])]
      exact h2
    · rw [List.find?_cons_of_neg (by rw [h1]; simpa using fun hx => hq (utf8_injective hx)),
        List.find?_cons_of_neg (by simpa using hq)]
      exact means_lookup hk h3

theorem usual_means {E : Env} (hk : E.keyMap = none) (hg : E.globalKeyMap = defaultGlobalKeyMap) {k : List Char} (hn : k ≠ []) :
    Means (lookupCommand E (utf8 k)) (usualVerb k) := by
  have := means_lookup hn table_means
  unfold usualVerb
  refine (?_ : lookupCommand E (utf8 k) = (assoc globalTable (utf8 k)).getD (.selfInsert (utf8 k))) ▸ this
  unfold lookupCommand
  rw [hk, hg]
  show (match assoc globalTable (utf8 k) with
    | some f => f
    | none => .selfInsert (utf8 k)) = _
  cases assoc globalTable (utf8 k) <;> rfl

variable {E : Env} {w : World} {D : Desk} {t : List Char} {n : Nat} {clip : Option (List Char)} {ks : List (List Char)}

/-! ## Any keys -/

/-- **Whatever the keys are bound to** among the commands of the package but completion: if the call returns, it returns
what the textbook returns. -/
theorem C78_result_partial (h : Setting E w D t n clip ks) {s : St} {r : RLRes} (hr : readLine E w = .ok (s, r)) :
    (textbook D t n clip ks).answer = some r :=
  textbook_result h hr

/-- Whenever a key is awaited, the line and the cursor are those of the textbook after the same keys, and so are the
clipboard and the keys that are still to be read. -/
theorem C78_states_partial (h : Setting E w D t n clip ks) {s : St} (hr : Reachable E w s) :
    ∃ p r, Turned D (opening D t n clip) ks p r ∧ s.text = utf8 p.text ∧ s.buf.length = p.text.length ∧
      s.cursor = p.left.length ∧ s.clip = p.clip.map utf8 ∧ keysIn s.input = r.map utf8 := by
  obtain ⟨p, r, h1, h2, h3⟩ := reachable_drawn h hr
  refine ⟨p, r, h1, ?_, ?_, h2.cursor, h2.clip, h3.keys⟩
  · rw [← h2.text]; exact St.text_eq s
  have := congrArg List.length h2.line
  rw [List.length_map] at this
  rw [← this]
  show _ = s.line.length
  unfold St.line
  rw [List.length_map]

/-- **With room on the screen** the call returns what the textbook returns, and panics where the textbook crashes: at the
Undo of an exchange at the end of the line. -/
theorem C78_total_partial {P : Nat → Prop} (h : Setting E w D t n clip ks) (hcm : ∀ q K, lookupCommand E q ≠ .completion K)
    (hm : Modest P E w) :
    (∃ s r, readLine E w = .ok (s, r) ∧ (textbook D t n clip ks).answer = some r) ∨
      ((∃ x, readLine E w = .error x) ∧ textbook D t n clip ks = .crashed) := by
  cases hr : readLine E w with
  | ok x => exact .inl ⟨x.1, x.2, rfl, textbook_result h hr⟩
  | error x => exact .inr ⟨⟨x, rfl⟩, textbook_failure h hcm hm hr⟩

/-- **Every page** the textbook comes to is a state of the call, also when it crashes later. -/
theorem C78_pages_partial {P : Nat → Prop} (h : Setting E w D t n clip ks) (hcm : ∀ q K, lookupCommand E q ≠ .completion K)
    (hm : Modest P E w) {p : Page} {r : List (List Char)} (ht : Turned D (opening D t n clip) ks p r) :
    ∃ s, Reachable E w s ∧ s.text = utf8 p.text ∧ s.cursor = p.left.length ∧ s.clip = p.clip.map utf8 ∧
      keysIn s.input = r.map utf8 := by
  obtain ⟨s, h1, h2, h3⟩ := turned_reached h (fails_there h hcm hm) ht
  refine ⟨s, h1, ?_, h2.cursor, h2.clip, h3.keys⟩
  rw [← h2.text]
  exact St.text_eq s

/-! ## Any keys and ordinary characters -/

/-- A desk with any keys for the commands of the package but completion. -/
structure Spec.PlainDesk (E : Env) (w : World) (D : Desk) (t : List Char) (n : Nat) (clip : Option (List Char))
    (ks : List (List Char)) : Prop where
  builtin : BuiltinKeys E
  noCompletion : ∀ q K, lookupCommand E q ≠ .completion K
  means : ∀ k ∈ ks, Means (lookupCommand E (utf8 k)) (D.verb k)
  history : E.history = D.history.map utf8
  cycling : E.historyCycling = D.cycling
  guessing : decide (E.predictColor.1 ≠ []) = D.guessing
  predictor : Foresees E D
  /-- the prompt can be written, or is as wide as the one that is written instead, and is equally wide every time -/
  top : E.promptErr = none ∨ promptWidth E w.promptN = 2
  prompt : ∀ n, promptWidth E n = promptWidth E w.promptN
  marks : E.delimiters = D.marks.map Char.toNat
  noNul : '\x00' ∉ D.marks
  upper : ∀ t, E.toUpper (utf8 t) = utf8 (D.upper t)
  clipSet : E.clipSet = fun _ t => some t
  default : E.default = utf8 t
  cursor : w.cursor = n
  clipboard : w.clip = clip.map utf8
  keys : keysIn w.input = ks.map utf8
  noErr : NoErr w.input
  full : ∀ k ∈ ks, k ≠ []
  /-- the characters of the texts are ordinary ones -/
  plain : ∀ u, u = t ∨ u ∈ D.history ∨ clip = some u → ∀ c ∈ u, Plain E.cfg c.toNat
  /-- so are those that are typed -/
  plainTyped : ∀ k ∈ ks, ∀ u, D.verb k = .type u → ∀ c ∈ u, Plain E.cfg c.toNat
  plainLiteral : (∃ k ∈ ks, D.verb k = .literally) → ∀ u ∈ ks, ∀ c ∈ u, Plain E.cfg c.toNat
  plainGuess : D.Within fun c => Plain E.cfg c.toNat
  quote : Plain E.cfg '"'.toNat
  /-- there are no predictions, none is taken, or no key leaves an old one -/
  fresh : D.guessing = false ∨ (∀ k ∈ ks, D.verb k ≠ .right) ∨
    ∀ k ∈ ks, D.verb k ∉ [.killRight, .killAll, .exchange, .older, .newer]
  room : promptWidth E w.promptN + 5 < w.termWidth
  resized : ∀ v, .resize v ∈ w.input → promptWidth E w.promptN + 5 < v

theorem keyText_sub {u : List Char} {c : Char} (h : c ∈ keyText u) : c ∈ u := by
  unfold keyText at h
  split at h
  · split at h
    · exact List.mem_cons_of_mem _ h
    · exact h
  · exact h

theorem stales_means {c : Cmd} {v : Verb} (h : Means c v) (hv : v ∉ [.killRight, .killAll, .exchange, .older, .newer]) :
    stales c = false := by
  cases h <;> first | rfl | (exfalso; exact hv (by decide))

theorem Spec.PlainDesk.setting (h : PlainDesk E w D t n clip ks) : Setting E w D t n clip ks where
  builtin := h.builtin
  history := h.history
  cycling := h.cycling
  guessing := h.guessing
  predictor := h.predictor
  marks := h.marks
  noNul := h.noNul
  upper := h.upper
  clipSet := h.clipSet
  default := h.default
  cursor := h.cursor
  clipboard := h.clipboard
  keys := h.keys
  noErr := h.noErr
  full := h.full
  means := h.means
  fresh := h.fresh.imp id (Or.imp id fun h1 k hk => stales_means (h.means k hk) (h1 k hk))
  aloneDefault := fun c hc => (h.plain t (.inl rfl) c hc).alone
  aloneHistory := fun u hu c hc => (h.plain u (.inr (.inl hu)) c hc).alone
  aloneClip := fun u hu c hc => (h.plain u (.inr (.inr hu)) c hc).alone
  aloneTyped := fun k hk u hu c hc => (h.plainTyped k hk u hu c (keyText_sub hc)).alone
  aloneLiteral := fun hx u hu c hc => (h.plainLiteral hx u hu c (keyText_sub hc)).alone
  aloneGuess := h.plainGuess.mono fun _ h => h.alone
  aloneQuote := fun _ => h.quote.alone

theorem over_plain {C : Cfg} {u : List Char} (h : ∀ c ∈ u, Plain C c.toNat) : Over (Plain C) (utf8 u) := by
  unfold Over
  rw [runesOf_utf8]
  simpa using h

/-- A key that is typed. -/
theorem means_typed {x : Bytes} {y : Verb} (h : Means (.selfInsert x) y) : ∃ u, y = .type u ∧ x = utf8 u := by
  generalize hc : Cmd.selfInsert x = c at h
  cases h <;> first | (cases hc; done) | (injection hc with hc; exact ⟨_, rfl, hc⟩)

theorem means_literally {y : Verb} (h : Means .quotedInsert y) : y = .literally := by
  cases h
  rfl

theorem means_exchange {y : Verb} (h : Means .swapChar y) : y = .exchange := by
  cases h
  rfl

theorem Spec.PlainDesk.texts (h : PlainDesk E w D t n clip ks) :
    ∀ x, x = E.default ∨ x ∈ E.history ∨ w.clip = some x ∨ FromKey E w x → Over (Plain E.cfg) x := by
  rintro x (rfl | hx | hx | hx)
  · rw [h.default]; exact over_plain (h.plain t (.inl rfl))
  · rw [h.history, List.mem_map] at hx
    obtain ⟨u, hu, rfl⟩ := hx
    exact over_plain (h.plain u (.inr (.inl hu)))
  · rw [h.clipboard] at hx
    cases hc : clip with
    | none => rw [hc] at hx; cases hx
    | some u => rw [hc] at hx; cases hx; exact over_plain (h.plain u (.inr (.inr hc)))
  · rcases hx with ⟨q, hq, hc⟩ | ⟨⟨q, hq, hc⟩, hk⟩
    · obtain ⟨k, hk, rfl⟩ := h.setting.key hq
      obtain ⟨u, hv, rfl⟩ := means_typed (hc ▸ h.means k hk)
      exact over_plain (h.plainTyped k hk u hv)
    · obtain ⟨k, hm, rfl⟩ := h.setting.key hk
      obtain ⟨k', hk', rfl⟩ := h.setting.key hq
      exact over_plain (h.plainLiteral ⟨k', hk', means_literally (hc ▸ h.means k' hk')⟩ k hm)

theorem Spec.PlainDesk.predictsPlain (h : PlainDesk E w D t n clip ks) : PredictsOver (Plain E.cfg) E :=
  predicts_over h.predictor h.history h.plainGuess fun u hu => h.plain u (.inr (.inl hu))

theorem Spec.PlainDesk.modest (h : PlainDesk E w D t n clip ks) : Modest (Plain E.cfg) E w := by
  have keyOk : ∀ k, FromKey E w k → Over (Plain E.cfg) (inserted k) := fun k hk =>
    over_inserted (h.texts k (Or.inr (Or.inr (Or.inr hk))))
  have nj : ∀ r, Plain E.cfg r → E.cfg.zwjOk = true → r = 0x200C ∨ r = 0x200D → False :=
    fun r hr hz h => hr.alone (Or.inl ⟨hz, h⟩)
  refine ⟨⟨h.texts _ (Or.inl rfl), fun t ht => h.texts t (Or.inr (Or.inl ht)), fun t ht => h.texts t (Or.inr (Or.inr (Or.inl ht))),
    fun c t u hu => ?_, h.predictsPlain, keyOk, fun q K _ hc' => absurd hc' (h.noCompletion q K), fun _ _ _ => h.quote,
    fun hz hj => ?_, fun hz k hk' hj => ?_⟩, fun r hr => hr, h.top, h.prompt, h.room, h.resized⟩
  · rw [h.clipSet] at hu
    injection hu with hu
    exact Or.inl hu.symm
  · rcases hj with hj | hj
    · exact (nj _ hj hz (Or.inl rfl)).elim
    · exact (nj _ hj hz (Or.inr rfl)).elim
  · have ho := keyOk k hk'
    cases hi : inserted k with
    | nil => exact ValidUtf8.nil
    | cons x t =>
      rw [hi] at hj ho
      exact (nj _ (ho _ (by rw [runesOf_cons]; simp)) hz hj).elim

/-- **Whatever the keys are bound to**, with ordinary characters and eight columns, every call of `ReadLine` returns what
the textbook returns, or panics where the textbook crashes. -/
theorem C78_bound_partial (h : PlainDesk E w D t n clip ks) :
    (∃ s r, readLine E w = .ok (s, r) ∧ (textbook D t n clip ks).answer = some r) ∨
      ((∃ x, readLine E w = .error x) ∧ textbook D t n clip ks = .crashed) :=
  C78_total_partial h.setting h.noCompletion h.modest

/-- It panics exactly when the textbook crashes. -/
theorem C78_panic_partial (h : PlainDesk E w D t n clip ks) :
    (∃ x, readLine E w = .error x) ↔ textbook D t n clip ks = .crashed := by
  rcases C78_bound_partial h with ⟨s, r, h1, h2⟩ | ⟨h1, h2⟩
  · constructor
    · rintro ⟨x, hx⟩; rw [h1] at hx; cases hx
    · intro hx; rw [hx] at h2; cases h2
  · exact ⟨fun _ => h2, fun _ => h1⟩

/-! ## The usual keys -/

/-- A desk with the usual keys. -/
structure Spec.UsualDesk (E : Env) (w : World) (D : Desk) (t : List Char) (n : Nat) (clip : Option (List Char))
    (ks : List (List Char)) : Prop where
  keyMap : E.keyMap = none
  globalKeyMap : E.globalKeyMap = defaultGlobalKeyMap
  verb : D.verb = usualVerb
  history : E.history = D.history.map utf8
  cycling : E.historyCycling = D.cycling
  guessing : decide (E.predictColor.1 ≠ []) = D.guessing
  predictor : Foresees E D
  prompt : E.prompt = none
  marks : E.delimiters = D.marks.map Char.toNat
  noNul : '\x00' ∉ D.marks
  upper : ∀ t, E.toUpper (utf8 t) = utf8 (D.upper t)
  clipSet : E.clipSet = fun _ t => some t
  default : E.default = utf8 t
  cursor : w.cursor = n
  clipboard : w.clip = clip.map utf8
  keys : keysIn w.input = ks.map utf8
  noErr : NoErr w.input
  full : ∀ k ∈ ks, k ≠ []
  /-- the characters of the texts are ordinary ones -/
  plain : ∀ u, u = t ∨ u ∈ D.history ∨ clip = some u → ∀ c ∈ u, Plain E.cfg c.toNat
  /-- so are those of the keys that are typed -/
  plainTyped : ∀ k ∈ ks, usualVerb k = .type k → ∀ c ∈ k, Plain E.cfg c.toNat
  plainLiteral : (∃ k ∈ ks, usualVerb k = .literally) → ∀ u ∈ ks, ∀ c ∈ u, Plain E.cfg c.toNat
  plainGuess : D.Within fun c => Plain E.cfg c.toNat
  quote : Plain E.cfg '"'.toNat
  /-- there are no predictions, none is taken, or no key leaves an old one -/
  fresh : D.guessing = false ∨ (∀ k ∈ ks, usualVerb k ≠ .right) ∨
    ∀ k ∈ ks, usualVerb k ∉ [.killRight, .killAll, .exchange, .older, .newer]
  room : 7 < w.termWidth
  resized : ∀ v, .resize v ∈ w.input → 7 < v

theorem usual_find {k : List Char} {u : List Char} (h : usualVerb k = .type u) : u = k := by
  unfold usualVerb at h
  split at h
  · rename_i p hp
    have h1 : ∀ p ∈ usualTable, ∀ u, p.2 ≠ .type u := by
      intro p hp u
      have : ∀ p ∈ usualTable, (match p.2 with | .type _ => false | _ => true) = true := by decide +kernel
      have := this p hp
      intro hx
      rw [hx] at this
      cases this
    exact absurd h (h1 p (List.mem_of_find?_eq_some hp) u)
  · cases h; rfl

theorem global_or_typed (hk : E.keyMap = none) (hg : E.globalKeyMap = defaultGlobalKeyMap) (k : Bytes) :
    (∃ p ∈ globalTable, lookupCommand E k = p.2) ∨ lookupCommand E k = .selfInsert k := by
  have h2 : lookupCommand E k = match assoc globalTable k with
    | some f => f
    | none => .selfInsert k := by
    unfold lookupCommand
    rw [hk, hg]
    rfl
  rw [h2]
  unfold assoc
  cases hp : globalTable.find? (fun p => p.1 == k) with
  | none => exact .inr rfl
  | some p => exact .inl ⟨p, List.mem_of_find?_eq_some hp, rfl⟩

theorem usual_no_completion (hk : E.keyMap = none) (hg : E.globalKeyMap = defaultGlobalKeyMap) (q : Bytes) (K : Completing) :
    lookupCommand E q ≠ .completion K := by
  intro hx
  have h1 : ∀ p ∈ globalTable, (match p.2 with | .completion _ => false | _ => true) = true := by decide
  rcases global_or_typed hk hg q with ⟨p, hp, h2⟩ | h2
  · have := h1 p hp
    rw [← h2, hx] at this
    cases this
  · rw [h2] at hx; cases hx

theorem promptWidth_default (h : E.prompt = none) (n : Nat) : promptWidth E n = 2 := by unfold promptWidth; rw [h]

/-- The usual keys are keys. -/
theorem Spec.UsualDesk.desk (h : UsualDesk E w D t n clip ks) : PlainDesk E w D t n clip ks := { h with
  top := .inr (promptWidth_default h.prompt _)
  prompt := fun n => by rw [promptWidth_default h.prompt, promptWidth_default h.prompt]
  room := by rw [promptWidth_default h.prompt]; exact h.room
  resized := fun v hv => by rw [promptWidth_default h.prompt]; exact h.resized v hv
  builtin := by
    intro k f hx
    have h1 : ∀ p ∈ globalTable, p.2.builtin = true := by decide
    rcases global_or_typed h.keyMap h.globalKeyMap k with ⟨p, hp, h2⟩ | h2
    · have := h1 p hp
      rw [← h2, hx] at this
      cases this
    · rw [h2] at hx; cases hx
  noCompletion := usual_no_completion h.keyMap h.globalKeyMap
  means := fun k hk => by rw [h.verb]; exact usual_means h.keyMap h.globalKeyMap (h.full k hk)
  plainTyped := fun k hk u hu => by
    rw [h.verb] at hu
    obtain rfl := usual_find hu
    exact h.plainTyped u hk hu
  plainLiteral := by rw [h.verb]; exact h.plainLiteral
  fresh := by rw [h.verb]; exact h.fresh }

/-- **With the usual keys**, ordinary characters and eight columns, every call of `ReadLine` returns what the textbook
returns, or panics where the textbook crashes. -/
theorem C78_usual_partial (h : UsualDesk E w D t n clip ks) :
    (∃ s r, readLine E w = .ok (s, r) ∧ (textbook D t n clip ks).answer = some r) ∨
      ((∃ x, readLine E w = .error x) ∧ textbook D t n clip ks = .crashed) :=
  C78_bound_partial h.desk

/-! ## Examples -/

section
open Example

/-- A desk with two lines in the history. -/
def sampleDesk : Desk :=
  { history := ["make all".toList, "git push".toList], cycling := false, guessing := false, marks := ['"', '\''], upper := id,
    verb := usualVerb }

def sampleEnv : Env := { env plain with history := [b "make all", b "git push"], default := b "say x" }

/-- Enter a text, exchange letters, kill a word and paste it twice, take it back, fetch a line of the history, search. -/
def sampleKeys : List (List Char) :=
  ["h", "é", "世", "\x02", "\x14", " ", "w", "\x17", "\x19", "\x19", "\x1a", "\x10", "!", "\x0e", "\x01", "\x12", "m", "k", "\x7f", "a", "\r",
    "\x06", "\x1bb", "?", "\r"].map String.toList

theorem plain_but_tabs {r : Nat} (h : r ≠ 9) : Plain plain r where
  alone := by
    unfold Joins plain
    simp
  noTab := h
  shown := .inr rfl
  columns := .inr (by
    show 1 ≤ (if r < 0x1100 then (1 : Int) else 2) ∧ (if r < 0x1100 then (1 : Int) else 2) ≤ 2
    split <;> omega)

/-- **Any** keys without tabs, with any changes of the width in between, meet the hypotheses. -/
theorem sample_usual {evs : List Ev} (hk : keysIn evs = ks.map utf8) (hf : ∀ k ∈ ks, k ≠ []) (ht : ∀ k ∈ ks, '\t' ∉ k) (he : NoErr evs)
    (hr : ∀ v, .resize v ∈ evs → 7 < v) :
    UsualDesk sampleEnv { input := evs, cursor := 3, clip := some (b "old") } sampleDesk "say x".toList 3 (some "old".toList) ks where
  keyMap := rfl
  globalKeyMap := rfl
  verb := rfl
  history := by decide +kernel
  cycling := rfl
  guessing := by decide
  predictor := foresees_usual rfl rfl
  plainGuess := within_newest rfl _
  prompt := rfl
  marks := by decide +kernel
  noNul := by decide +kernel
  upper := fun _ => rfl
  clipSet := rfl
  default := by decide +kernel
  cursor := rfl
  clipboard := show some (b "old") = Option.map utf8 (some "old".toList) by decide +kernel
  keys := hk
  noErr := he
  full := hf
  plain := by
    intro u hu c hc
    refine plain_but_tabs fun hx => ?_
    have hx : c = '\t' := Char.toNat_inj.mp hx
    subst hx
    have h0 : ∀ u ∈ ["say x".toList, "make all".toList, "git push".toList, "old".toList], '\t' ∉ u := by decide +kernel
    rcases hu with rfl | hu | hu
    · exact h0 _ (by simp) hc
    · have : u = "make all".toList ∨ u = "git push".toList := by simpa [sampleDesk] using hu
      rcases this with rfl | rfl
      · exact h0 _ (by simp) hc
      · exact h0 _ (by simp) hc
    · cases hu; exact h0 _ (by simp) hc
  plainTyped := fun k hk _ c hc => plain_but_tabs fun hx => ht k hk (by
    have hx : c = '\t' := Char.toNat_inj.mp hx
    exact hx ▸ hc)
  plainLiteral := fun _ k hk c hc => plain_but_tabs fun hx => ht k hk (by
    have hx : c = '\t' := Char.toNat_inj.mp hx
    exact hx ▸ hc)
  quote := plain_but_tabs (by decide)
  fresh := .inl rfl
  room := show (7 : Int) < 80 by decide
  resized := hr

example : UsualDesk sampleEnv { input := sampleKeys.map fun k => .key (utf8 k), cursor := 3, clip := some (b "old") } sampleDesk
    "say x".toList 3 (some "old".toList) sampleKeys :=
  sample_usual (by decide +kernel) (by decide +kernel) (by decide +kernel) (by intro x hx; simp at hx) (by intro x hx; simp at hx)

/-- What it comes to. -/
example : textbook sampleDesk "say x".toList 3 (some "old".toList) sampleKeys = .entered "make ?all".toList := by decide +kernel

/-- So the editor returns it. -/
example : ∃ s, readLine sampleEnv { input := sampleKeys.map fun k => .key (utf8 k), cursor := 3, clip := some (b "old") } =
    .ok (s, { text := utf8 "make ?all".toList, err := .nil }) := by
  have ht : textbook sampleDesk "say x".toList 3 (some "old".toList) sampleKeys = .entered "make ?all".toList := by decide +kernel
  have := C78_usual_partial (sample_usual (ks := sampleKeys) (evs := sampleKeys.map fun k => .key (utf8 k)) (by decide +kernel)
    (by decide +kernel) (by decide +kernel) (by intro x hx; simp at hx) (by intro x hx; simp at hx))
  rw [ht] at this
  rcases this with ⟨s, r, h1, h2⟩ | ⟨-, h2⟩
  · refine ⟨s, ?_⟩
    rw [h1]
    cases h2
    rfl
  · cases h2

/-- The Undo of an exchange at the end of the line. -/
example : textbook sampleDesk "say x".toList 5 none (["\x14", "\x1a", "\r"].map String.toList) = .crashed := by decide +kernel

/-- **Without the condition on predictions** it is not so: type `ab`, press Escape, take the prediction that is left over
(`cdef`) into the empty line. -/
theorem C78_refuted_stale :
    outcome (readLine { env plain with history := [b "abcdef"], predictColor := (b "<", b ">") }
      { input := keys ["a", "b", "\x1b", "\x06", "\r"] }) = .inr (b "cdef", .nil) ∧
    textbook { history := ["abcdef".toList], cycling := false, guessing := true, marks := ['"', '\''], upper := id, verb := usualVerb }
      [] 0 none (["a", "b", "\x1b", "\x06", "\r"].map String.toList) = .entered [] := by
  constructor <;> decide +kernel

end

end Readline
