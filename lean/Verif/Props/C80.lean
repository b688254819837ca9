import Verif.Spec.PageOnScreen
import Verif.Proof.Pages
import Verif.Proof.Sign
import Verif.Props.C78
/-!
# C80: the terminal shows the pages of the textbook, one after the other

From the keys to the cells of the terminal without the editor in between: `Spec/Textbook` says which page follows which key,
`Spec/PageOnScreen` what a page looks like.
-/
namespace Readline
open Spec

variable {E : Env} {w : World} {D : Desk} {t : List Char} {n : Nat} {clip : Option (List Char)} {ks : List (List Char)}
  {adv : Rune → Int} {v : Vt} {S : Sign}

/-- A terminal that agrees with the editor about ordinary characters and is ready for output. -/
structure Spec.Console (S : Sign) (E : Env) (w : World) (D : Desk) (t : List Char) (clip : Option (List Char)) (ks : List (List Char))
    (adv : Rune → Int) (v : Vt) : Prop where
  promptErr : E.promptErr = none
  colourOn : Sgr E.predictColor.1
  colourOff : Sgr E.predictColor.2
  agrees : AgreesPlain E.cfg adv
  ascii : ∀ r, 0x20 ≤ r → r ≤ 0x7E → Plain E.cfg r
  width : ∀ r, 0 ≤ E.cfg.width r
  zwj : ∀ a b, 0 ≤ a → 0 ≤ b → 0 ≤ E.cfg.zwjWidth a b
  /-- a key begins with a control character or an ordinary one -/
  begins : ∀ k ∈ ks, ∀ c ∈ k.head?, isControlRune c.toNat = true ∨ Plain E.cfg c.toNat
  /-- if letters are exchanged, every character takes one column -/
  narrow : (∃ k ∈ ks, D.verb k = .exchange) → (∀ u, u = t ∨ u ∈ D.history ∨ clip = some u → ∀ c ∈ u, plainColumns E.cfg c.toNat = 1) ∧
    (∀ k ∈ ks, ∀ u, D.verb k = .type u → ∀ c ∈ u, plainColumns E.cfg c.toNat = 1) ∧ (∀ k ∈ ks, D.verb k ≠ .literally) ∧
    ∀ k ∈ ks, ∀ c ∈ k.head?, isControlRune c.toNat = true ∨ plainColumns E.cfg c.toNat = 1
  narrowGuess : (∃ k ∈ ks, D.verb k = .exchange) → D.Within fun c => plainColumns E.cfg c.toNat = 1
  ground : v.mode = .ground
  col : 0 ≤ v.col
  /-- what the prompt looks like -/
  sign : S.Of E adv v.width
  /-- the prompt goes to the next row, or is written at the beginning of this one -/
  start : S.down = true ∨ v.col = 0
  wide : w.termWidth ≤ v.width
  resized : ∀ n, .resize n ∈ w.input → n ≤ v.width

/-- The characters that occur. -/
def Occurring (E : Env) (D : Desk) (ks : List (List Char)) (r : Nat) : Prop :=
  Plain E.cfg r ∧ ((∃ k ∈ ks, D.verb k = .exchange) → plainColumns E.cfg r = 1)

theorem over_occurring {u : List Char} (h1 : ∀ c ∈ u, Plain E.cfg c.toNat)
    (h2 : (∃ k ∈ ks, D.verb k = .exchange) → ∀ c ∈ u, plainColumns E.cfg c.toNat = 1) : Over (Occurring E D ks) (utf8 u) := by
  unfold Over
  rw [runesOf_utf8]
  intro r hr
  rw [List.mem_map] at hr
  obtain ⟨c, hc, rfl⟩ := hr
  exact ⟨h1 c hc, fun hx => h2 hx c hc⟩

theorem console_over (h : PlainDesk E w D t n clip ks) (hC : Console S E w D t clip ks adv v) :
    ∀ x, x = E.default ∨ x ∈ E.history ∨ w.clip = some x ∨ FromKey E w x → Over (Occurring E D ks) x := by
  have htext : ∀ u, u = t ∨ u ∈ D.history ∨ clip = some u → Over (Occurring E D ks) (utf8 u) := fun u hu =>
    over_occurring (h.plain u hu) fun hx => (hC.narrow hx).1 u hu
  rintro x (rfl | hx | hx | hx)
  · rw [h.default]; exact htext t (.inl rfl)
  · rw [h.history, List.mem_map] at hx
    obtain ⟨u, hu, rfl⟩ := hx
    exact htext u (.inr (.inl hu))
  · rw [h.clipboard] at hx
    cases hc : clip with
    | none => rw [hc] at hx; cases hx
    | some u => rw [hc] at hx; cases hx; exact htext u (.inr (.inr hc))
  · by_cases hs : ∃ k ∈ ks, D.verb k = .exchange
    · obtain ⟨-, h2, h3, -⟩ := hC.narrow hs
      rcases hx with ⟨q, hq, hc⟩ | ⟨⟨q, hq, hc⟩, hk⟩
      · obtain ⟨k, hk, rfl⟩ := h.setting.key hq
        obtain ⟨u, hv, rfl⟩ := means_typed (hc ▸ h.means k hk)
        exact over_occurring (h.plainTyped k hk u hv) fun _ => h2 k hk u hv
      · obtain ⟨k, hk', rfl⟩ := h.setting.key hq
        exact absurd (means_literally (hc ▸ h.means k hk')) (h3 k hk')
    · have := h.texts x (.inr (.inr (.inr hx)))
      exact fun r hr => ⟨this r hr, fun hx => absurd hx hs⟩

theorem console_ordinary (h : PlainDesk E w D t n clip ks) (hC : Console S E w D t clip ks adv v) : Ordinary (Occurring E D ks) E w := by
  have hm := h.modest
  have ht := console_over h hC
  have keyOk : ∀ k, FromKey E w k → Over (Occurring E D ks) (inserted k) := fun k h' =>
    over_inserted (ht k (Or.inr (Or.inr (Or.inr h'))))
  have nj : ∀ r, Plain E.cfg r → E.cfg.zwjOk = true → r = 0x200C ∨ r = 0x200D → False :=
    fun r hr hz h => hr.alone (Or.inl ⟨hz, h⟩)
  have hone : plainColumns E.cfg 0x22 = 1 := by
    rw [← hC.agrees.plain 0x22 (hC.ascii _ (by decide) (by decide)) (by decide) (by unfold Padded; omega)]
    exact hC.agrees.ascii _ (by decide) (by decide)
  have hwi : D.Within fun c => Occurring E D ks c.toNat := by
    by_cases hx : ∃ k ∈ ks, D.verb k = .exchange
    · exact (h.plainGuess.and (hC.narrowGuess hx)).mono fun c hc => ⟨hc.1, fun _ => hc.2⟩
    · exact h.plainGuess.mono fun c hc => ⟨hc, fun hy => absurd hy hx⟩
  have hhi : ∀ u ∈ D.history, ∀ c ∈ u, Occurring E D ks c.toNat := fun u hu c hc =>
    ⟨h.plain u (.inr (.inl hu)) c hc, fun hx => (hC.narrow hx).1 u (.inr (.inl hu)) c hc⟩
  refine ⟨⟨ht _ (Or.inl rfl), fun t h => ht t (Or.inr (Or.inl h)), fun t h => ht t (Or.inr (Or.inr (Or.inl h))),
    fun c t u hu => ?_, predicts_over h.predictor h.history hwi hhi, keyOk, fun q K _ hc' => absurd hc' (h.noCompletion q K),
    fun _ _ _ => ⟨h.quote, fun _ => hone⟩,
    fun hz hj => ?_, fun hz k hk' hj => ?_⟩, fun r hr => hr.1, hC.promptErr, hm.prompt, hm.room, hm.resized,
    fun e he => h.noErr e ((List.dropLast_sublist _).subset he), fun q hq hc => ⟨1, fun r hr => hr.2 ?_⟩⟩
  · rw [h.clipSet] at hu
    injection hu with hu
    exact Or.inl hu.symm
  · rcases hj with hj | hj
    · exact (nj _ hj.1 hz (Or.inl rfl)).elim
    · exact (nj _ hj.1 hz (Or.inr rfl)).elim
  · have ho := keyOk k hk'
    cases hi : inserted k with
    | nil => exact ValidUtf8.nil
    | cons x t =>
      rw [hi] at hj ho
      exact (nj _ (ho _ (by rw [runesOf_cons]; simp)).1 hz hj).elim
  · obtain ⟨k, hk, rfl⟩ := h.setting.key hq
    exact ⟨k, hk, means_exchange (hc ▸ h.means k hk)⟩

theorem console_ascii (hC : Console S E w D t clip ks adv v) : ∀ r, 0x20 ≤ r → r ≤ 0x7E → Occurring E D ks r := by
  intro r h1 h2
  refine ⟨hC.ascii r h1 h2, fun _ => ?_⟩
  rw [← hC.agrees.plain r (hC.ascii _ h1 h2) h1 (by unfold Padded; omega)]
  exact hC.agrees.ascii _ h1 h2

theorem console_plainly (h : PlainDesk E w D t n clip ks) (hC : Console S E w D t clip ks adv v) : Plainly (Occurring E D ks) E w := by
  refine ⟨fun q _ _ => ⟨fun r hr => ?_, fun q hq => ?_⟩, fun q K _ hc' => absurd hc' (h.noCompletion q K)⟩
  · have : ∀ r ∈ searchHead, 0x20 ≤ r ∧ r ≤ 0x7E := by decide
    exact console_ascii hC r (this r hr).1 (this r hr).2
  · obtain ⟨k, hk, rfl⟩ := h.setting.key hq
    cases k with
    | nil => exact absurd rfl (h.full _ hk)
    | cons c cs =>
      rw [decodeRune_utf8]
      by_cases hx : isControlRune c.toNat = true
      · exact .inl hx
      · exact .inr ⟨(hC.begins _ hk c rfl).resolve_left hx, fun hs => ((hC.narrow hs).2.2.2 _ hk c rfl).resolve_left hx⟩

/-- The states of the call on the terminal. -/
theorem console_shows (h : PlainDesk E w D t n clip ks) (hC : Console S E w D t clip ks adv v) :
    ∀ s, Reachable E w s → noResize s.input ≠ [] → ∃ o, s.out = w.out ++ o ∧
      Spec.Displays E.cfg adv (v.run adv (bytesOf E.cfg o)) (S.columns E.cfg) (s.termWidth - S.columns E.cfg - 3) (runesOf s.text)
        s.cursor.toNat (runesOf (lineText s.suffixList)) ∧
      S.At E.cfg adv (v.run adv (bytesOf E.cfg o)) (v.run adv (bytesOf E.cfg o)).row := fun _ hr hn =>
  C58_sign_partial h.builtin (console_ordinary h hC) (console_plainly h hC) hC.agrees (width_nonneg hC.width hC.zwj) hC.colourOn hC.colourOff
    hC.sign hC.ground hC.col hC.start hC.wide hC.resized hr hn

theorem portrays_shows (h : PlainDesk E w D t n clip ks) (hC : Console S E w D t clip ks adv v) {s : St} (hr : Reachable E w s) {p : Page}
    (hd : Portrays E.logic s.ed p) (hn : noResize s.input ≠ []) :
    ∃ o hint, s.out = w.out ++ o ∧ ShowsPage S E.cfg adv (v.run adv (bytesOf E.cfg o)) (s.termWidth - S.columns E.cfg - 3) p hint ∧
      ((D.guessing = false ∨ ∀ k ∈ ks, D.verb k ∉ [.killRight, .killAll, .exchange, .older, .newer]) →
        hint = (p.offer D).map Char.toNat) := by
  obtain ⟨o, h1, h2, h3⟩ := console_shows h hC s hr hn
  have ht : s.text = utf8 p.text := by rw [← hd.text]; exact St.text_eq s
  have hc : s.cursor = (p.left.length : Int) := hd.cursor
  refine ⟨o, runesOf (lineText s.suffixList), h1, ⟨h3, ?_⟩, fun hf => ?_⟩
  · rw [ht, runesOf_utf8, hc] at h2
    exact h2
  · have := offers h.setting hr hd (hf.imp id fun hx k hk =>
      stales_means (h.means k hk) (hx k hk))
    have e : lineText s.suffixList = utf8 (p.offer D) := this.text
    rw [e, runesOf_utf8]

/-- **Whenever a key is awaited** the terminal shows the page of the textbook after the keys that were read. -/
theorem C80_partial (h : PlainDesk E w D t n clip ks) (hC : Console S E w D t clip ks adv v) {s : St} (hr : Reachable E w s)
    (hn : noResize s.input ≠ []) :
    ∃ p k r o hint, Turned D (opening D t n clip) ks p (k :: r) ∧ keysIn s.input = (k :: r).map utf8 ∧ s.out = w.out ++ o ∧
      ShowsPage S E.cfg adv (v.run adv (bytesOf E.cfg o)) (s.termWidth - S.columns E.cfg - 3) p hint ∧
      ((D.guessing = false ∨ ∀ k ∈ ks, D.verb k ∉ [.killRight, .killAll, .exchange, .older, .newer]) →
        hint = (p.offer D).map Char.toNat) := by
  obtain ⟨p, r, h1, h2, h3⟩ := reachable_drawn h.setting hr
  obtain ⟨o, hint, h4⟩ := portrays_shows h hC hr h2 hn
  cases r with
  | nil => exact absurd rfl (awaits_upcoming h3 hn)
  | cons k r => exact ⟨p, k, r, o, hint, h1, h3.keys, h4⟩

/-- **Every page** of the textbook at which a key follows is shown: at some moment of the call, before that key is read. -/
theorem C80_pages_partial (h : PlainDesk E w D t n clip ks) (hC : Console S E w D t clip ks adv v) {p : Page} {k : List Char}
    {r : List (List Char)} (ht : Turned D (opening D t n clip) ks p (k :: r)) :
    ∃ s o hint, Reachable E w s ∧ keysIn s.input = (k :: r).map utf8 ∧ s.out = w.out ++ o ∧
      (s.termWidth = w.termWidth ∨ .resize s.termWidth ∈ w.input) ∧
      ShowsPage S E.cfg adv (v.run adv (bytesOf E.cfg o)) (s.termWidth - S.columns E.cfg - 3) p hint ∧
      ((D.guessing = false ∨ ∀ k ∈ ks, D.verb k ∉ [.killRight, .killAll, .exchange, .older, .newer]) →
        hint = (p.offer D).map Char.toNat) := by
  obtain ⟨s, h1, h2, h3⟩ := turned_reached h.setting
    (fails_there h.setting (h.noCompletion) h.modest) ht
  obtain ⟨o, hint, h4, h5⟩ := portrays_shows h hC h1 h2 (upcoming_awaits h3)
  exact ⟨s, o, hint, h1, h3.keys, h4, reachable_width (BuiltinKeys.builtin h.setting.builtin) h1, h5⟩

/-- **Without a key that exchanges letters** the call ends with what the textbook returns: there is nothing at which it fails. -/
theorem C80_result_partial (h : PlainDesk E w D t n clip ks) (hs : ∀ k ∈ ks, D.verb k ≠ .exchange) :
    ∃ s r, readLine E w = .ok (s, r) ∧ (textbook D t n clip ks).answer = some r := by
  obtain ⟨s, r, hok⟩ : ∃ s r, readLine E w = .ok (s, r) := by
    cases hx : readLine E w with
    | ok p => exact ⟨p.1, p.2, rfl⟩
    | error p =>
      obtain ⟨k, K, h1, -⟩ := C01_ordinary_partial h.builtin (by rw [h.cursor]; omega) h.modest (fun q hq hc => by
        obtain ⟨k, hk, rfl⟩ := h.setting.key hq
        exact hs k hk (means_exchange (hc ▸ h.means k hk))) hx
      exact absurd h1 (h.noCompletion k K)
  exact ⟨s, r, hok, C78_result_partial h.setting hok⟩

section
open Example

/-- One line in the history, predictions in another colour, a table of widths in which DEL has none. -/
def shownDesk : Desk :=
  { history := ["make 世".toList], cycling := false, guessing := true, marks := ['"', '\''], upper := id, verb := usualVerb }

def shownEnv : Env := { env table with history := [b "make 世"], predictColor := ([0x1B, 0x5B, 0x32, 0x6D], [0x1B, 0x5B, 0x30, 0x6D]) }

/-- **Any** keys that are of printable characters or bound to a command, but those that would leave an old prediction and
quoted insert. -/
theorem shown_usual {evs : List Ev} (hk : keysIn evs = ks.map utf8) (hf : ∀ k ∈ ks, k ≠ [])
    (ht : ∀ k ∈ ks, usualVerb k = .type k → ∀ c ∈ k, 0x20 ≤ c.toNat ∧ (c.toNat < 0x7F ∨ 0x9F < c.toNat))
    (hl : ∀ k ∈ ks, usualVerb k ∉ [.killRight, .killAll, .exchange, .older, .newer, .literally]) (he : NoErr evs)
    (hr : ∀ v, .resize v ∈ evs → 7 < v) : UsualDesk shownEnv { input := evs } shownDesk [] 0 none ks where
  keyMap := rfl
  globalKeyMap := rfl
  verb := rfl
  history := by decide +kernel
  cycling := rfl
  guessing := by decide
  predictor := foresees_usual rfl rfl
  plainGuess := within_newest rfl _
  prompt := rfl
  marks := by decide +kernel
  noNul := by decide +kernel
  upper := fun _ => rfl
  clipSet := rfl
  default := by decide +kernel
  cursor := rfl
  clipboard := rfl
  keys := hk
  noErr := he
  full := hf
  plain := by
    intro u hu c hc
    have h0 : ∀ c ∈ "make 世".toList, (c.toNat < 0x7F ∨ 0x9F < c.toNat) ∧ c.toNat ≠ 9 := by decide +kernel
    rcases hu with rfl | hu | hu
    · cases hc
    · have : u = "make 世".toList := by simpa [shownDesk] using hu
      subst this
      exact table_plain (h0 c hc).1 (h0 c hc).2
    · cases hu
  plainTyped := fun k hk hv c hc => table_plain (ht k hk hv c hc).2 (by have := (ht k hk hv c hc).1; omega)
  plainLiteral := fun ⟨k, hk, hv⟩ => absurd (hv ▸ by simp) (hl k hk)
  quote := table_plain (by decide) (by decide)
  fresh := .inr (.inr fun k hk hx => hl k hk (by simp only [List.mem_cons] at hx ⊢; rcases hx with hx | hx | hx | hx | hx | hx <;> simp_all))
  room := show (7 : Int) < 80 by decide
  resized := hr

theorem shown_console {evs : List Ev} (hf : ∀ k ∈ ks, ∀ c ∈ k.head?, (c.toNat ≠ 9)) (hx : ∀ k ∈ ks, usualVerb k ≠ .exchange)
    (hr : ∀ v, .resize v ∈ evs → v ≤ 80) : Console usualSign shownEnv { input := evs } shownDesk [] none ks (plainColumns table) screen where
  promptErr := rfl
  colourOn := .inr ⟨[0x32], rfl, by decide⟩
  colourOff := .inr ⟨[0x30], rfl, by decide⟩
  agrees := table_agrees
  ascii := fun r h1 h2 => table_plain (Or.inl (by omega)) (by omega)
  width := fun r => by
    show 0 ≤ (if 0x7F ≤ r ∧ r ≤ 0x9F then (0 : Int) else if r < 0x1100 then 1 else 2)
    repeat' split
    all_goals omega
  zwj := fun a b h1 h2 => by show 0 ≤ a + 1 + b; omega
  begins := by
    intro k hk c hc
    by_cases h : 0x7F ≤ c.toNat ∧ c.toNat ≤ 0x9F
    · left
      rw [isControlRune_iff]
      unfold isCtl
      omega
    · exact .inr (table_plain (by omega) (hf k hk c hc))
  narrow := fun ⟨k, hk, hy⟩ => absurd hy (hx k hk)
  narrowGuess := fun _ => within_newest rfl _
  ground := rfl
  col := by decide
  sign := usual_sign table_agrees (fun r h1 h2 => table_plain (Or.inl (by omega)) (by omega)) rfl (by decide)
  start := .inl rfl
  wide := Int.le_refl 80
  resized := hr

/-- `m`, `x`, Backspace (DEL), `a`, then Enter. -/
def shownKeys : List (List Char) := ["m", "x", "\x7f", "a", "\r"].map String.toList

theorem shown_ready : UsualDesk shownEnv { input := shownKeys.map fun k => .key (utf8 k) } shownDesk [] 0 none shownKeys ∧
    Console usualSign shownEnv { input := shownKeys.map fun k => .key (utf8 k) } shownDesk [] none shownKeys (plainColumns table) screen :=
  ⟨shown_usual (by decide +kernel) (by decide +kernel) (by decide +kernel) (by decide +kernel) (by intro x hx; simp at hx)
    (by intro x hx; simp at hx), shown_console (by decide +kernel) (by decide +kernel) (by intro x hx; simp at hx)⟩

/-- Some turns, to compute an example. -/
def pageAfter (D : Desk) : Nat → Page → List (List Char) → Option (Page × List (List Char))
  | 0, p, ks => some (p, ks)
  | _ + 1, _, [] => none
  | m + 1, p, k :: ks =>
    match turn D p k ks with
    | .inl (q, r) => pageAfter D m q r
    | .inr _ => none

theorem pageAfter_turned {p0 p q : Page} {r r' : List (List Char)} {m : Nat} (h : Turned D p0 ks p r)
    (ha : pageAfter D m p r = some (q, r')) : Turned D p0 ks q r' := by
  induction m generalizing p r with
  | zero => cases ha; exact h
  | succ m ih =>
    cases r with
    | nil => cases ha
    | cons k r =>
      rw [pageAfter] at ha
      split at ha
      · rename_i e; exact ih (.turn h e) ha
      · cases ha

/-- The page before Enter: `ma` with the cursor at the end, `ke 世` offered. -/
example : ∃ p, Turned shownDesk (opening shownDesk [] 0 none) shownKeys p ["\r".toList] ∧ p.text = "ma".toList ∧
    p.offer shownDesk = "ke 世".toList := by
  have h : (pageAfter shownDesk 4 (opening shownDesk [] 0 none) shownKeys).map (fun x => (x.1.text, x.1.offer shownDesk, x.2)) =
    some ("ma".toList, "ke 世".toList, ["\r".toList]) := by decide +kernel
  obtain ⟨⟨p, r⟩, h1, h2⟩ := Option.map_eq_some_iff.mp h
  simp only [Prod.mk.injEq] at h2
  exact ⟨p, h2.2.2 ▸ pageAfter_turned .start h1, h2.1, h2.2.1⟩

/-- On the terminal then: `> make 世`, with the cursor at the `k`. -/
example : ∃ s, Reachable shownEnv { input := shownKeys.map fun k => .key (utf8 k) } s ∧ s.input.length = 1 ∧
    (screen.run (plainColumns table) (bytesOf table s.out)).col = 4 ∧
    ((List.range 10).map fun (i : Nat) => (screen.run (plainColumns table) (bytesOf table s.out)).cells 4 (i : Int)) =
      [some (0x3E, 0), some (0x20, 0), some (0x6D, 0), some (0x61, 0), some (0x6B, 0), some (0x65, 0), some (0x20, 0),
        some (0x4E16, 0), some (0x4E16, 1), none] := by
  obtain ⟨s, h1, h2⟩ := gets_ok (E := shownEnv) (w := { input := shownKeys.map fun k => .key (utf8 k) }) (n := 4)
    (p := fun s => decide (s.input.length = 1 ∧ (screen.run (plainColumns table) (bytesOf table s.out)).col = 4 ∧
      ((List.range 10).map fun (i : Nat) => (screen.run (plainColumns table) (bytesOf table s.out)).cells 4 (i : Int)) =
      [some (0x3E, 0), some (0x20, 0), some (0x6D, 0), some (0x61, 0), some (0x6B, 0), some (0x65, 0), some (0x20, 0),
        some (0x4E16, 0), some (0x4E16, 1), none])) (by decide +kernel)
  exact ⟨s, h1, of_decide_eq_true h2⟩

/-- The same desk without predictions. -/
def quietDesk : Desk := { shownDesk with history := ["make".toList], guessing := false }

def quietEnv : Env := { env table with history := [b "make"] }

/-- Letters exchanged inside the line and at its end, an Undo inside. -/
def exchangeKeys : List (List Char) := ["a", "b", "\x14", "c", "\x02", "\x14", "\x02", "\x14", "\x1a", "\x10", "\r"].map String.toList

theorem quiet_usual {W : Int} (hW : 7 < W) (ks : List (List Char)) (hf : ∀ k ∈ ks, k ≠ [])
    (ht : ∀ k ∈ ks, usualVerb k = .type k → ∀ c ∈ k, 0x20 ≤ c.toNat ∧ (c.toNat < 0x7F ∨ 0x9F < c.toNat))
    (hl : ∀ k ∈ ks, usualVerb k ≠ .literally) :
    UsualDesk quietEnv { termWidth := W, input := ks.map fun k => .key (utf8 k) } quietDesk [] 0 none ks where
  keyMap := rfl
  globalKeyMap := rfl
  verb := rfl
  history := by decide +kernel
  cycling := rfl
  guessing := by decide
  predictor := foresees_usual rfl rfl
  plainGuess := within_newest rfl _
  prompt := rfl
  marks := by decide +kernel
  noNul := by decide +kernel
  upper := fun _ => rfl
  clipSet := rfl
  default := by decide +kernel
  cursor := rfl
  clipboard := rfl
  keys := by
    clear hf ht hl
    show keysIn (ks.map fun k => Ev.key (utf8 k)) = ks.map utf8
    induction ks with
    | nil => rfl
    | cons k ks ih => exact congrArg (utf8 k :: ·) ih
  noErr := by intro x hx; simp at hx
  full := hf
  plain := by
    intro u hu c hc
    have h0 : ∀ c ∈ "make".toList, (c.toNat < 0x7F ∨ 0x9F < c.toNat) ∧ c.toNat ≠ 9 := by decide +kernel
    rcases hu with rfl | hu | hu
    · cases hc
    · have : u = "make".toList := by simpa [quietDesk] using hu
      subst this
      exact table_plain (h0 c hc).1 (h0 c hc).2
    · cases hu
  plainTyped := fun k hk hv c hc => table_plain (ht k hk hv c hc).2 (by have := (ht k hk hv c hc).1; omega)
  plainLiteral := fun ⟨k, hk, hv⟩ => absurd hv (hl k hk)
  quote := table_plain (by decide) (by decide)
  fresh := .inl rfl
  room := hW
  resized := by intro v hv; simp at hv

example : UsualDesk quietEnv { input := exchangeKeys.map fun k => .key (utf8 k) } quietDesk [] 0 none exchangeKeys ∧
    Console usualSign quietEnv { input := exchangeKeys.map fun k => .key (utf8 k) } quietDesk [] none exchangeKeys (plainColumns table) screen := by
  refine ⟨quiet_usual (by decide) exchangeKeys (by decide +kernel) (by decide +kernel) (by decide +kernel), ?_⟩
  have h := shown_console (ks := []) (evs := []) (by simp) (by simp) (by simp)
  refine ⟨rfl, .inl rfl, .inl rfl, table_agrees, h.ascii, h.width, h.zwj, ?_, fun _ => ⟨?_, fun k hk u hu => ?_, by decide +kernel,
    by decide +kernel⟩, fun _ => within_newest rfl _, rfl, by decide,
    usual_sign table_agrees (fun r h1 h2 => table_plain (Or.inl (by omega)) (by omega)) rfl (by decide), .inl rfl, Int.le_refl 80, by intro x hx; simp at hx⟩
  · intro k hk c hc
    have : ∀ k ∈ exchangeKeys, ∀ c ∈ k.head?, c.toNat < 0x7F ∧ c.toNat ≠ 9 := by decide +kernel
    exact .inr (table_plain (.inl (this k hk c hc).1) (this k hk c hc).2)
  · rintro u (rfl | hu | hu) c hc
    · cases hc
    · have : u = "make".toList := by simpa [quietDesk] using hu
      subst this
      have h0 : ∀ c ∈ "make".toList, plainColumns table c.toNat = 1 := by decide +kernel
      exact h0 c hc
    · cases hu
  · obtain rfl := usual_find hu
    have : ∀ k ∈ exchangeKeys, usualVerb k = .type k → ∀ c ∈ k, plainColumns table c.toNat = 1 := by decide +kernel
    exact this u hk hu

/-- What it comes to. -/
example : textbook quietDesk [] 0 none exchangeKeys = .entered "make".toList ∧
    textbook quietDesk [] 0 none (exchangeKeys.take 8 ++ ["\r".toList]) = .entered "bac".toList := by decide +kernel

/-- `a語xyz` in ten columns, the cursor brought back to `語`, the first that is seen, then Ctrl-T. -/
def wideKeys : List (List Char) := ["a", "語", "x", "y", "\x02", "\x02", "\x02", "\x14", "\r"].map String.toList

theorem table_columns (r : Rune) : 0 ≤ plainColumns table r := by
  unfold plainColumns
  split
  · decide
  · show 0 ≤ (if 0x7F ≤ r ∧ r ≤ 0x9F then (0 : Int) else if r < 0x1100 then 1 else 2)
    repeat' split
    all_goals decide

/-- Where a picture begins there is no second half of a character. -/
theorem picture_begins {l : List Rune} {x : Int} {y : Rune × Int} (h : picture table (plainColumns table) l x x = some y) : y.2 = 0 := by
  induction l with
  | nil => cases h
  | cons r l ih =>
    rw [picture] at h
    have := table_columns r
    split at h
    · cases h
      unfold seenOf
      rw [show x - x = 0 by omega]
      repeat' split
      all_goals rfl
    · rw [show x + plainColumns table r = x by omega] at h
      exact ih h

/-- Behind an `a` there is none either. -/
theorem half_never {l : List Rune} {y : Rune × Int} (h : picture table (plainColumns table) l 2 2 = some (0x61, 0))
    (h' : picture table (plainColumns table) l 2 3 = some y) : y.2 = 0 := by
  induction l with
  | nil => cases h
  | cons r l ih =>
    rw [picture] at h h'
    have := table_columns r
    by_cases hc : (2 : Int) ≤ 2 ∧ 2 < 2 + plainColumns table r
    · rw [if_pos hc] at h
      have hr : r = 0x61 := by
        have h := Option.some.inj h
        unfold seenOf at h
        split at h
        · cases h
        · split at h
          · exact congrArg Prod.fst h
          · cases h
      subst hr
      rw [if_neg (by decide), show (2 : Int) + plainColumns table 0x61 = 3 by decide] at h'
      exact picture_begins h'
    · rw [if_neg hc] at h
      have e : 2 + plainColumns table r = 2 := by omega
      rw [if_neg (by omega)] at h'
      rw [e] at h h'
      exact ih h h'

/-- **With characters of different widths** Ctrl-T spoils the row: `a` comes to stand where `語` stood, half of which is
left, and what follows is one column too far to the right. -/
theorem C80_refuted_exchange : ∃ s, UsualDesk quietEnv { termWidth := 10, input := wideKeys.map fun k => .key (utf8 k) } quietDesk [] 0 none
      wideKeys ∧
    Reachable quietEnv { termWidth := 10, input := wideKeys.map fun k => .key (utf8 k) } s ∧ s.input.length = 1 ∧
    (∃ p, Turned quietDesk (opening quietDesk [] 0 none) wideKeys p ["\r".toList] ∧ p.text = "語axy".toList ∧ p.left = "語a".toList) ∧
    ∀ p hint, ¬ ShowsPage usualSign table (plainColumns table)
      (({ screen with width := 10 } : Vt).run (plainColumns table) (bytesOf table s.out)) (s.termWidth - 5) p hint := by
  obtain ⟨s, h1, h2⟩ := gets_ok (E := quietEnv) (w := { termWidth := 10, input := wideKeys.map fun k => .key (utf8 k) }) (n := 8)
    (p := fun s => decide (s.input.length = 1 ∧
      ((List.range 4).map fun (i : Nat) => (({ screen with width := 10 } : Vt).run (plainColumns table) (bytesOf table s.out)).cells
        (({ screen with width := 10 } : Vt).run (plainColumns table) (bytesOf table s.out)).row (i + 2 : Int)) =
      [some (0x61, 0), some (0x8A9E, 1), some (0x78, 0), some (0x79, 0)])) (by decide +kernel)
  obtain ⟨h2, h3⟩ := of_decide_eq_true h2
  refine ⟨s, quiet_usual (by decide) wideKeys (by decide +kernel) (by decide +kernel) (by decide +kernel), h1, h2, ?_, ?_⟩
  · have h : (pageAfter quietDesk 8 (opening quietDesk [] 0 none) wideKeys).map (fun x => (x.1.text, x.1.left, x.2)) =
      some ("語axy".toList, "語a".toList, ["\r".toList]) := by decide +kernel
    obtain ⟨⟨p, r⟩, h1, h2⟩ := Option.map_eq_some_iff.mp h
    simp only [Prod.mk.injEq] at h2
    exact ⟨p, h2.2.2 ▸ pageAfter_turned .start h1, h2.1, h2.2.1⟩
  · rintro p hint ⟨-, -, away, left, right, rest, more, -, -, -, -, -, -, hp⟩
    simp only [List.range, List.range.loop, List.map_cons, List.map_nil, List.cons.injEq] at h3
    obtain ⟨c2, c3, -⟩ := h3
    have e2 := (hp 2 (by decide)).symm.trans c2
    have e3 := (hp 3 (by decide)).symm.trans c3
    have := half_never e2 e3
    cases this

end

end Readline
