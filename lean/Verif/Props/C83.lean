import Verif.Proof.Dialogue
import Verif.Props.C73
import Verif.Props.C79
/-!
# C83: the dialogue with examples/example3.go

From the keys to all the rows of the terminal, with what the program prints: `TEXT=` and the line after every line,
`ERR=` and the error at the end.
-/
namespace Readline
open Spec

variable {E : Env} {w : World} {D : Desk} {t : List Char} {n : Nat} {clip : Option (List Char)} {ks : List (List Char)}
  {adv : Rune → Int} {v : Vt} {S : Sign}

/-! ## Any program of this kind -/

/-- The loop and the program of the textbook: what is printed does not change what is read. -/
theorem replyLines_notebook {keep : Bytes → Bool} {keepC : List Char → Bool} (hkeep : ∀ l, keep (utf8 l) = keepC l) (m : Nat) :
    ∀ {w : World} {c : Container} {hist : List (List Char)} {n : Nat} {clip : Option (List Char)} {ks : List (List Char)} {f : Nat},
      PlainDesk { E with history := c.buffer } w { D with history := hist } t n clip ks → w.input.length < m → ks.length < f →
      (∃ x, replyLines E keep m c w = .ok x ∧ x.1.buffer = (notebook D keepC t f hist n clip ks).1.map utf8 ∧
          ∃ u, (notebook D keepC t f hist n clip ks).2.answer = some ⟨u, x.2.1⟩) ∨
        ((∃ x, replyLines E keep m c w = .error x) ∧ (notebook D keepC t f hist n clip ks).2 = .crashed) := by
  induction m with
  | zero => intro w c hist n clip ks f _ hw; omega
  | succ m ih =>
    intro w c hist n clip ks f h hw hf
    obtain ⟨f, rfl⟩ : ∃ x, f = x + 1 := ⟨f - 1, by omega⟩
    rw [notebook, replyLines]
    rcases C78_bound_partial h with ⟨s, r, h1, h2⟩ | ⟨⟨x, h1⟩, h2⟩
    · rw [h1]
      by_cases hn : r.err = .nil
      · obtain ⟨l, p, rest, g1, g2, g3, g4, g5, g6, g7, g8⟩ := line_entered h.setting h1 hn
        have hnext := desk_next (keep := keepC) h h1 hn g2 g3 g4 g5 g7
        rw [g1]
        have hb : (if keep r.text then c.add r.text else c).buffer = if keepC l then c.buffer ++ [r.text] else c.buffer := by
          rw [g2, hkeep]
          split <;> rfl
        have := ih (c := if keep r.text then c.add r.text else c) (w := s.world.print (replyText r.text)) (f := f) (by rw [hb]; exact hnext.print _)
          (by show s.input.length < m; omega) (by omega)
        show (∃ x, (match r.err with
          | .nil => replyLines E keep m (if keep r.text then c.add r.text else c) (s.world.print (replyText r.text))
          | err => pure (c, err, s.world.print (replyErr err))) = .ok x ∧ _) ∨ ((∃ x, (match r.err with
          | .nil => replyLines E keep m (if keep r.text then c.add r.text else c) (s.world.print (replyText r.text))
          | err => pure (c, err, s.world.print (replyErr err))) = .error x) ∧ _)
        rw [hn]
        exact this
      · left
        rw [← oneLine_textbook] at h2
        generalize oneLine { D with history := hist } t n clip ks = o at h2
        obtain ⟨a, p, rest⟩ := o
        have hh : c.buffer = hist.map utf8 := h.history
        show ∃ x, (match r.err with
          | .nil => replyLines E keep m (if keep r.text then c.add r.text else c) (s.world.print (replyText r.text))
          | err => pure (c, err, s.world.print (replyErr err))) = .ok x ∧ _
        cases a with
        | entered l => cases h2; exact absurd rfl hn
        | interrupted => cases h2; exact ⟨_, rfl, hh, _, rfl⟩
        | closed => cases h2; exact ⟨_, rfl, hh, _, rfl⟩
        | starved => cases h2; exact ⟨_, rfl, hh, _, rfl⟩
        | crashed => cases h2
    · right
      rw [h1]
      refine ⟨⟨x, rfl⟩, ?_⟩
      rw [← oneLine_textbook] at h2
      generalize oneLine { D with history := hist } t n clip ks = o at h2
      obtain ⟨a, p, rest⟩ := o
      have h2 : a = .crashed := h2
      subst h2
      rfl

theorem dialogue_start {C : Cfg} {rooms : Int → Prop} : Dialogue S C adv rooms v v (1 - S.drop) [] := by
  intro k _ _
  rw [show 1 - S.drop - 1 + S.drop + k = k by omega]

/-- **Whenever the program waits for a key**: the page of the textbook in the row of the cursor, above it the dialogue so far,
and above that what stood on the terminal before. -/
theorem C83_partial {keep : Bytes → Bool} {keepC : List Char → Bool} (hkeep : ∀ l, keep (utf8 l) = keepC l) (hlf : E.lineFeed = none)
    (h : PlainDesk { E with history := [] } w { D with history := [] } t n clip ks)
    (hC : Console S { E with history := [] } w { D with history := [] } t clip ks adv v) (hg : Legible { D with history := [] } t clip ks)
    (hl : ∀ k ∈ ks, D.verb k ≠ .redraw) (hv : v.row < v.height) (hcl : Clear v) {s : St} (ha : Midst E keep {} w s) (hn : noResize s.input ≠ []) :
    ∃ ps p r o hint, Opened D keepC t [] [] n clip ks ps p r ∧ keysIn s.input = r.map utf8 ∧ s.out = w.out ++ o ∧
      ShowsPage S E.cfg adv (v.run adv (bytesOf E.cfg o)) (s.termWidth - S.columns E.cfg - 3) p hint ∧
      ((D.guessing = false ∨ ∀ k ∈ ks, D.verb k ∉ [.killRight, .killAll, .exchange, .older, .newer]) →
        hint = (p.offer { D with history := heard keepC ps }).map Char.toNat) ∧
      Dialogue S E.cfg adv (roomsOf S E.cfg w) v (v.run adv (bytesOf E.cfg o)) 1 ps :=
  midst_dialogue (rooms := roomsOf S E.cfg w) (ps := []) hkeep hlf ha hn h hC hg hl hv hcl roomsOf_all dialogue_start rfl

/-- **When the program has ended** with Ctrl-C or Ctrl-D: the cursor is in an empty row; above it stands
`ERR=` with the error, then the line that was given up, then the dialogue. -/
theorem C83_end_partial {keep : Bytes → Bool} {keepC : List Char → Bool} (hkeep : ∀ l, keep (utf8 l) = keepC l) (hlf : E.lineFeed = none)
    (h : PlainDesk { E with history := [] } w { D with history := [] } t n clip ks)
    (hC : Console S { E with history := [] } w { D with history := [] } t clip ks adv v) (hwd : 7 ≤ v.width) (hg : Legible { D with history := [] } t clip ks)
    (hl : ∀ k ∈ ks, D.verb k ≠ .redraw) (hv : v.row < v.height) (hcl : Clear v) {x : Container × RLErr × World}
    (hx : replyLines E keep (w.input.length + 1) {} w = .ok x) (he : ∀ e, x.2.1 ≠ .tty e) :
    ∃ o a p, parting D keepC t (ks.length + 1) [] n clip ks = (a, p) ∧ (a = .interrupted ∧ x.2.1 = .ctrlC ∨ a = .closed ∧ x.2.1 = .eof) ∧
      x.2.2.out = w.out ++ o ∧ (v.run adv (bytesOf E.cfg o)).mode = .ground ∧ (v.run adv (bytesOf E.cfg o)).col = 0 ∧
      (∀ x, (v.run adv (bytesOf E.cfg o)).cells (v.run adv (bytesOf E.cfg o)).row x = none) ∧
      Above adv (v.run adv (bytesOf E.cfg o)) 1 [farewellLine a] ∧
      (∃ room l m, roomsOf S E.cfg w room ∧ Remains D ks a p l m ∧
        RowShows S E.cfg adv (v.run adv (bytesOf E.cfg o)) ((v.run adv (bytesOf E.cfg o)).row - 2) room (l.map Char.toNat) m) ∧
      Dialogue S E.cfg adv (roomsOf S E.cfg w) v (v.run adv (bytesOf E.cfg o)) 3 (leaves D keepC t (ks.length + 1) [] [] n clip ks) :=
  replyLines_dialogue (rooms := roomsOf S E.cfg w) (c := {}) (ps := []) hkeep hlf (w.input.length + 1) h hC hwd hg hl hv hcl roomsOf_all dialogue_start
    (Nat.lt_succ_self _) hx he

/-- **Every page** the textbook's program comes to before a key is a state of the program. -/
theorem opened_midst {keep : Bytes → Bool} {keepC : List Char → Bool} (hkeep : ∀ l, keep (utf8 l) = keepC l) {hist : List (List Char)}
    {ps ps' : List Page} {p : Page} {r : List (List Char)} (ho : Opened D keepC t ps hist n clip ks ps' p r) :
    ∀ {c : Container} {w : World}, PlainDesk { E with history := c.buffer } w { D with history := hist } t n clip ks →
      ∃ s, Midst E keep c w s ∧ Upcoming s.input r ∧ s.text = utf8 p.text ∧ s.cursor = (p.left.length : Int) := by
  induction ho with
  | here ht =>
    intro c w h
    obtain ⟨s, h1, h2, h3⟩ := turned_reached h.setting (fails_there h.setting (h.noCompletion) h.modest) ht
    exact ⟨s, .here h1, h3, by rw [← h2.text]; exact St.text_eq s, h2.cursor⟩
  | @next ps h n clip ks l q rest ps' p r g1 _ ih =>
    intro c w hu
    rcases C78_bound_partial hu with ⟨s, res, h1, h2⟩ | ⟨-, h2⟩
    · have hn : res.err = .nil := by
        rw [← oneLine_textbook, g1] at h2
        cases h2
        rfl
      obtain ⟨l', p', rest', k1, k2, k3, k4, k5, k6, k7, k8⟩ := line_entered hu.setting h1 hn
      rw [g1] at k1
      injection k1 with k1 k1'
      injection k1 with k1
      injection k1' with k1' k1''
      subst k1 k1' k1''
      have hb : (if keep res.text then c.add res.text else c).buffer = if keepC l then c.buffer ++ [res.text] else c.buffer := by
        rw [k2, hkeep]
        split <;> rfl
      obtain ⟨s', q1, q2⟩ := ih (c := if keep res.text then c.add res.text else c) (w := s.world.print (replyText res.text))
        (by rw [hb]; exact (desk_next (keep := keepC) hu h1 hn k2 k3 k4 k5 k7).print _)
      exact ⟨s', .next h1 hn q1, q2⟩
    · rw [← oneLine_textbook, g1] at h2
      cases h2

/-! ## The keys of example3 -/

/-- The ten keys of the program. -/
def Spec.starTable : List (List Char × Verb) := [
  (['\x13'], .left), (['\x04'], .right), (['\x18'], .newer), (['\x05'], .older), (['\x01'], .wordLeft), (['\x06'], .wordRight),
  (['\x07'], .delete), (['\x02'], .type ['\x02']), (['\x10'], .type ['\x10']), (['\x0e'], .type ['\x0e'])]

/-- What a key means there; the others mean what they usually do. -/
def Spec.starVerb (k : List Char) : Verb :=
  match starTable.find? (fun p => p.1 == k) with
  | some p => p.2
  | none => usualVerb k

theorem star_means {k : List Char} (hk : k ≠ []) : Means (lookupCommand (wordstar E) (utf8 k)) (starVerb k) := by
  by_cases h : k ∈ starTable.map Prod.fst
  · simp only [starTable, List.map_cons, List.map_nil, List.mem_cons, List.not_mem_nil, or_false] at h
    have ht : ∀ c : Char, Means (.selfInsert (utf8 [c])) (.type [c]) := fun c => .type [c] (by simp)
    rcases h with rfl | rfl | rfl | rfl | rfl | rfl | rfl | rfl | rfl | rfl
    · exact .left
    · exact .right
    · exact .newer
    · exact .older
    · exact .wordLeft
    · exact .wordRight
    · exact .delete
    · exact ht '\x02'
    · exact ht '\x10'
    · exact ht '\x0e'
  · have h1 : starTable.find? (fun p => p.1 == k) = none := by
      rw [List.find?_eq_none]
      intro p hp hx
      exact h (List.mem_map.mpr ⟨p, hp, by simpa using hx⟩)
    have h2 : utf8 k ∉ tenKeys := by
      intro hx
      have : tenKeys = (starTable.map Prod.fst).map utf8 := by decide +kernel
      rw [this] at hx
      obtain ⟨q, hq, e⟩ := List.mem_map.mp hx
      rw [utf8_injective e] at hq
      exact h hq
    unfold starVerb
    rw [h1, C73_others h2]
    exact usual_means rfl rfl hk

/-- The desk of the program. -/
def Spec.starDesk (up : List Char → List Char) : Desk :=
  { history := [], cycling := false, guessing := false, marks := ['"', '\''], upper := up, verb := starVerb }

/-- What the program is given: a table of widths, keys, and a clipboard, all of ordinary characters that are printable. -/
structure Spec.StarTable (E : Env) (w : World) (up : List Char → List Char) (clip : Option (List Char)) (ks : List (List Char)) (adv : Rune → Int)
    (v : Vt) : Prop where
  upper : ∀ t, E.toUpper (utf8 t) = utf8 (up t)
  clipSet : E.clipSet = fun _ t => some t
  cursor : w.cursor = 0
  clipboard : w.clip = clip.map utf8
  clipText : ∀ u, clip = some u → ∀ c ∈ u, Readable E.cfg c.toNat
  keys : keysIn w.input = ks.map utf8
  noErr : NoErr w.input
  full : ∀ k ∈ ks, k ≠ []
  /-- what is typed can be printed; the others are keys of the program other than Ctrl-L, Ctrl-Q, Ctrl-V and Ctrl-T -/
  typed : ∀ k ∈ ks, (∃ u, starVerb k = .type u ∧ ∀ c ∈ u, Readable E.cfg c.toNat) ∨
    ((∀ u, starVerb k ≠ .type u) ∧ starVerb k ∉ [.redraw, .literally, .exchange])
  begins : ∀ k ∈ ks, ∀ c ∈ k.head?, isControlRune c.toNat = true ∨ Plain E.cfg c.toNat
  agrees : AgreesPlain E.cfg adv
  ascii : ∀ r, 0x20 ≤ r → r ≤ 0x7E → Plain E.cfg r
  width : ∀ r, 0 ≤ E.cfg.width r
  zwj : ∀ a b, 0 ≤ a → 0 ≤ b → 0 ≤ E.cfg.zwjWidth a b
  room : 7 < w.termWidth
  wide : w.termWidth ≤ v.width
  resized : ∀ n, .resize n ∈ w.input → 7 < n ∧ n ≤ v.width
  ground : v.mode = .ground
  col : 0 ≤ v.col
  inside : v.row < v.height
  clear : Clear v

variable {up : List Char → List Char}

theorem star_desk (h : StarTable E w up clip ks adv v) : PlainDesk { wordstar E with history := [] } w (starDesk up) [] 0 clip ks where
  builtin := wordstar_builtin (E := E)
  noCompletion := fun q => (wordstar_command (E := E) q).2.1
  means := fun k hk => star_means (E := E) (h.full k hk)
  history := rfl
  cycling := rfl
  guessing := by show decide (([] : Bytes) ≠ []) = false; decide
  predictor := foresees_usual rfl rfl
  plainGuess := within_newest rfl _
  top := .inl rfl
  prompt := fun _ => rfl
  marks := by show ([0x22, 0x27] : List Rune) = ['"', '\''].map Char.toNat; decide +kernel
  noNul := by show '\x00' ∉ ['"', '\'']; decide
  upper := h.upper
  clipSet := h.clipSet
  default := rfl
  cursor := h.cursor
  clipboard := h.clipboard
  keys := h.keys
  noErr := h.noErr
  full := h.full
  plain := by
    rintro u (rfl | hu | hu) c hc
    · cases hc
    · cases hu
    · exact (h.clipText u hu c hc).1
  plainTyped := by
    intro k hk u hu c hc
    rcases h.typed k hk with ⟨u', h1, h2⟩ | ⟨h1, -⟩
    · have : Verb.type u = .type u' := hu.symm.trans h1
      injection this with e
      exact (h2 c (e ▸ hc)).1
    · exact absurd hu (h1 u)
  plainLiteral := by
    rintro ⟨k, hk, hx⟩
    have hx : starVerb k = .literally := hx
    rcases h.typed k hk with ⟨u', h1, -⟩ | ⟨-, h2⟩
    · rw [hx] at h1; cases h1
    · exact absurd (hx ▸ by simp) h2
  quote := h.ascii _ (by decide) (by decide)
  fresh := .inl rfl
  room := h.room
  resized := fun n hn => (h.resized n hn).1

theorem star_never {x : Verb} (hx : x = .redraw ∨ x = .literally ∨ x = .exchange) (h : StarTable E w up clip ks adv v) : ∀ k ∈ ks, starVerb k ≠ x := by
  intro k hk e
  rcases h.typed k hk with ⟨u', h1, -⟩ | ⟨-, h2⟩
  · rw [e] at h1; subst h1; rcases hx with hx | hx | hx <;> cases hx
  · exact h2 (by rw [e]; rcases hx with rfl | rfl | rfl <;> simp)

theorem star_console (h : StarTable E w up clip ks adv v) :
    Console usualSign { wordstar E with history := [] } w (starDesk up) [] clip ks adv v where
  promptErr := rfl
  colourOn := .inl rfl
  colourOff := .inl rfl
  agrees := h.agrees
  ascii := h.ascii
  width := h.width
  zwj := h.zwj
  begins := h.begins
  narrow := fun ⟨k, hk, hx⟩ => absurd hx (star_never (.inr (.inr rfl)) h k hk)
  narrowGuess := fun _ => within_newest rfl _
  ground := h.ground
  col := h.col
  sign := usual_sign h.agrees h.ascii rfl (by have := h.room; have := h.wide; omega)
  start := .inl rfl
  wide := h.wide
  resized := fun n hn => (h.resized n hn).2

theorem star_legible (h : StarTable E w up clip ks adv v) : Legible (starDesk up) [] clip ks where
  texts := by
    rintro u (rfl | hu | hu) c hc
    · cases hc
    · cases hu
    · exact (h.clipText u hu c hc).2
  typed := by
    intro k hk u hu c hc
    rcases h.typed k hk with ⟨u', h1, h2⟩ | ⟨h1, -⟩
    · have : Verb.type u = .type u' := hu.symm.trans h1
      injection this with e
      exact (h2 c (e ▸ hc)).2
    · exact absurd hu (h1 u)
  literal := star_never (.inr (.inl rfl)) h
  guess := within_newest rfl _

/-! ## The dialogue of example3 -/

/-- **The program does not fail**, and its history and its error are those of the textbook's program with the ten keys; Ctrl-C ends
it, or there is nothing to read any more. -/
theorem C83_example3_partial (h : StarTable E w up clip ks adv v) :
    ∃ x, example3 E w = .ok x ∧ x.1.buffer = (notebook (starDesk up) (fun _ => true) [] (ks.length + 1) [] 0 clip ks).1.map utf8 ∧
      ∃ u, (notebook (starDesk up) (fun _ => true) [] (ks.length + 1) [] 0 clip ks).2.answer = some ⟨u, x.2.1⟩ := by
  rcases replyLines_notebook (E := wordstar E) (D := starDesk up) (t := []) (keep := fun _ => true) (keepC := fun _ => true) (fun _ => rfl)
    (w.input.length + 1) (c := {}) (star_desk h) (Nat.lt_succ_self _) (Nat.lt_succ_self _) with hx | ⟨-, h2⟩
  · exact hx
  · exfalso
    have hno : ∀ (f : Nat) {hist : List (List Char)} {n : Nat} {clip : Option (List Char)} {rs : List (List Char)} {c : Container} {w : World},
        rs <:+ ks → PlainDesk { wordstar E with history := c.buffer } w { starDesk up with history := hist } [] n clip rs →
        (notebook (starDesk up) (fun _ => true) [] f hist n clip rs).2 ≠ .crashed := by
      intro f
      induction f with
      | zero => intro hist n clip rs c w _ _; rw [notebook]; simp
      | succ f ih =>
        intro hist n clip rs c w hs hd
        rw [notebook]
        obtain ⟨s, r, h1, h2⟩ := C80_result_partial hd fun k hk => star_never (.inr (.inr rfl)) h k (hs.subset hk)
        rw [← oneLine_textbook] at h2
        cases ho : oneLine { starDesk up with history := hist } [] n clip rs with
        | mk a q =>
          obtain ⟨p, rest⟩ := q
          rw [ho] at h2
          cases a with
          | entered l =>
            have hn : r.err = .nil := by cases h2; rfl
            obtain ⟨l', p', rest', g1, g2, g3, g4, g5, g6, g7, g8⟩ := line_entered hd.setting h1 hn
            rw [ho] at g1
            injection g1 with g1 g1'
            injection g1 with g1
            injection g1' with g1' g1''
            subst g1 g1' g1''
            exact ih (c := c.add r.text) (g7.trans hs) (desk_next (keep := fun _ => true) hd h1 hn g2 g3 g4 g5 g7)
          | crashed => cases h2
          | _ => simp
    exact hno _ (List.suffix_refl ks) (c := {}) (star_desk h) h2

/-- **Whenever it waits for a key**: the line that is edited in the row of the cursor, nothing behind it; an empty row; what was
printed about the last line; that line behind its prompt; an empty row; and so on up to what stood there before. -/
theorem C83_example3_waits_partial (h : StarTable E w up clip ks adv v) {s : St} (ha : Midst (wordstar E) (fun _ => true) {} w s)
    (hn : noResize s.input ≠ []) :
    ∃ ps p r o, Opened (starDesk up) (fun _ => true) [] [] [] 0 clip ks ps p r ∧ keysIn s.input = r.map utf8 ∧ s.out = w.out ++ o ∧
      ShowsPage usualSign E.cfg adv (v.run adv (bytesOf E.cfg o)) (s.termWidth - 5) p [] ∧
      Dialogue usualSign E.cfg adv (roomsOf usualSign E.cfg w) v (v.run adv (bytesOf E.cfg o)) 1 ps := by
  obtain ⟨ps, p, r, o, hint, h1, h2, h3, h4, h5, h6⟩ := C83_partial (E := wordstar E) (D := starDesk up) (keep := fun _ => true) (keepC := fun _ => true)
    (fun _ => rfl) rfl (star_desk h) (star_console h) (star_legible h) (star_never (.inl rfl) h) h.inside h.clear ha hn
  have hc : usualSign.columns (wordstar E).cfg = 2 := usual_columns h.agrees h.ascii
  rw [h5 (.inl rfl), hc, show s.termWidth - 2 - 3 = s.termWidth - 5 by omega, show p.offer { starDesk up with history := heard (fun _ => true) ps } = [] by unfold Page.offer; rw [if_pos (.inl rfl)]] at h4
  exact ⟨ps, p, r, o, h1, h2, h3, h4, h6⟩

/-- **When it has ended** with Ctrl-C: `ERR=^C`, the line that was given up, and the dialogue. -/
theorem C83_example3_end_partial (h : StarTable E w up clip ks adv v) {x : Container × RLErr × World} (hx : example3 E w = .ok x)
    (he : ∀ e, x.2.1 ≠ .tty e) :
    ∃ o p, parting (starDesk up) (fun _ => true) [] (ks.length + 1) [] 0 clip ks = (.interrupted, p) ∧ x.2.1 = .ctrlC ∧
      x.2.2.out = w.out ++ o ∧ (v.run adv (bytesOf E.cfg o)).mode = .ground ∧ (v.run adv (bytesOf E.cfg o)).col = 0 ∧
      (∀ x, (v.run adv (bytesOf E.cfg o)).cells (v.run adv (bytesOf E.cfg o)).row x = none) ∧
      Above adv (v.run adv (bytesOf E.cfg o)) 1 ["ERR=^C".toList.map Char.toNat] ∧
      (∃ room, roomsOf usualSign E.cfg w room ∧ RowShows usualSign E.cfg adv (v.run adv (bytesOf E.cfg o)) ((v.run adv (bytesOf E.cfg o)).row - 2) room
        (p.text.map Char.toNat) p.left.length) ∧
      Dialogue usualSign E.cfg adv (roomsOf usualSign E.cfg w) v (v.run adv (bytesOf E.cfg o)) 3 (leaves (starDesk up) (fun _ => true) [] (ks.length + 1) [] [] 0 clip ks) := by
  obtain ⟨o, a, p, h1, h2, h3, h4, h5, h6, h7, h8, h9⟩ := C83_end_partial (E := wordstar E) (D := starDesk up) (keep := fun _ => true) (keepC := fun _ => true)
    (fun _ => rfl) rfl (star_desk h) (star_console h) (by have := h.room; have := h.wide; omega) (star_legible h) (star_never (.inl rfl) h) h.inside h.clear hx he
  rcases h2 with ⟨rfl, h2⟩ | ⟨rfl, h2⟩
  · obtain ⟨room, l, m, j1, ⟨j2, -⟩, j3⟩ := h8
    rcases j2 with ⟨rfl, rfl⟩ | ⟨j2, -⟩
    · exact ⟨o, p, h1, h2, h3, h4, h5, h6, h7, ⟨room, j1, j3⟩, h9⟩
    · cases j2
  · exfalso
    have hends : ∀ (m : Nat) {c : Container} {w : World}, replyLines (wordstar E) (fun _ => true) m c w = .ok x → x.2.1 ≠ .eof := by
      intro m
      induction m with
      | zero => intro c w hx; cases hx
      | succ m ih =>
        intro c w hx
        rw [replyLines] at hx
        obtain ⟨⟨s, r⟩, hr, hx⟩ := bind_ok.mp hx
        have hb : BuiltinKeys { wordstar E with history := c.buffer } := wordstar_builtin (E := E)
        obtain ⟨u, -, hst⟩ := readLine_reachable hr
        have hend := step_ends hb hst
        have hx : (match r.err with
          | .nil => replyLines (wordstar E) (fun _ => true) m (if (fun _ => true) r.text then c.add r.text else c) (s.world.print (replyText r.text))
          | err => pure (c, err, s.world.print (replyErr err))) = .ok x := hx
        dsimp only at hend
        cases he : r.err with
        | nil => rw [he] at hx; exact ih hx
        | ctrlC => rw [he] at hx; cases hx; simp
        | eof =>
          cases hend with
          | @eof k rest hi hk => exact absurd hk (wordstar_command (E := E) k).2.2.2.1
          | _ => cases he
        | tty e => rw [he] at hx; cases hx; simp
    exact hends _ hx h2

/-- **Every page** is shown: whatever page the textbook's program comes to before a key, the program is in a state with it. -/
theorem C83_example3_pages_partial (h : StarTable E w up clip ks adv v) {ps : List Page} {p : Page} {k : List Char} {r : List (List Char)}
    (ho : Opened (starDesk up) (fun _ => true) [] [] [] 0 clip ks ps p (k :: r)) :
    ∃ s, Midst (wordstar E) (fun _ => true) {} w s ∧ noResize s.input ≠ [] ∧ keysIn s.input = (k :: r).map utf8 ∧ s.text = utf8 p.text ∧
      s.cursor = (p.left.length : Int) := by
  obtain ⟨s, h1, h2, h3⟩ := opened_midst (E := wordstar E) (keep := fun _ => true) (c := {}) (fun _ => rfl) ho (star_desk h)
  exact ⟨s, h1, upcoming_awaits h2, h2.keys, h3⟩

section
open Example

/-- Two lines on four rows of eight columns: `世` and, fetched with Ctrl-E and made longer, `世ab`; then `z`, given up. -/
def starKeys : List (List Char) := ["世", "\r", "\x05", "a", "b", "\x13", "\r", "z", "\x03"].map String.toList

def fewRows : Vt := { fourRows with width := 8 }

theorem starKeys_ready : StarTable (env table) { termWidth := 8, input := starKeys.map fun k => .key (utf8 k) } id none starKeys (plainColumns table) fewRows := by
  have h := shown_console (ks := []) (evs := []) (by simp) (by simp) (by simp)
  refine ⟨fun _ => rfl, rfl, rfl, rfl, (fun u hu => by cases hu), by decide +kernel, (by intro x hx; simp at hx), by decide +kernel, ?_, ?_,
    table_agrees, h.ascii, h.width, h.zwj, by decide, by decide, (by intro x hx; simp at hx), rfl, by decide, by decide, ?_⟩
  · have : ∀ k ∈ starKeys, (starVerb k = .type k ∧ ∀ c ∈ k, 0x20 ≤ c.toNat ∧ (c.toNat < 0x7F ∨ 0x9F < c.toNat)) ∨
        starVerb k ∈ [.enter, .older, .left, .interrupt] := by decide +kernel
    intro k hk
    rcases this k hk with ⟨h1, h2⟩ | h1
    · exact .inl ⟨k, h1, fun c hc => ⟨table_plain (h2 c hc).2 (by have := (h2 c hc).1; omega), (h2 c hc).1⟩⟩
    · right
      simp only [List.mem_cons, List.not_mem_nil, or_false] at h1
      rcases h1 with h1 | h1 | h1 | h1 <;> rw [h1] <;> exact ⟨(fun u hu => by cases hu), by decide⟩
  · intro k hk c hc
    have : ∀ k ∈ starKeys, ∀ c ∈ k.head?, (c.toNat < 0x7F ∨ 0x9F < c.toNat) ∧ c.toNat ≠ 9 := by decide +kernel
    exact .inr (table_plain (this k hk c hc).1 (this k hk c hc).2)
  · intro y hy x
    have hy : (3 : Int) < y := hy
    show (if y = 3 ∧ x = 0 then some (0x24, 0) else none) = none
    rw [if_neg (by omega)]

def rowsUp (adv : Rune → Int) (C : Cfg) (m : Nat) (o : List Tok) : List (List Sight) :=
  let v := fewRows.run adv (bytesOf C o)
  (List.range m).map fun (k : Nat) => (List.range 8).map fun (i : Nat) => v.cells (v.row - k) i

/-- The rows in the end, from the cursor upwards; the second line scrolled, so that it is shown up to its third column, and what is
printed about it takes two rows, since `世` still fits into the first but `b` does not. -/
example : (match example3 (env table) { termWidth := 8, input := starKeys.map fun k => .key (utf8 k) } with
    | .ok x => (x.1.buffer, rowsUp (plainColumns table) table 12 x.2.2.out)
    | .error _ => ([], [])) =
    (["世", "世ab"].map b,
     [[none, none, none, none, none, none, none, none],
     [some (0x45, 0), some (0x52, 0), some (0x52, 0), some (0x3D, 0), some (0x5E, 0), some (0x43, 0), none, none],
     [some (0x3E, 0), some (0x20, 0), some (0x7A, 0), none, none, none, none, none],
     [none, none, none, none, none, none, none, none],
     [some (0x62, 0), none, none, none, none, none, none, none],
     [some (0x54, 0), some (0x45, 0), some (0x58, 0), some (0x54, 0), some (0x3D, 0), some (0x4E16, 0), some (0x4E16, 1), some (0x61, 0)],
     [some (0x3E, 0), some (0x20, 0), some (0x61, 0), some (0x62, 0), none, none, none, none],
     [none, none, none, none, none, none, none, none],
     [some (0x54, 0), some (0x45, 0), some (0x58, 0), some (0x54, 0), some (0x3D, 0), some (0x4E16, 0), some (0x4E16, 1), none],
     [some (0x3E, 0), some (0x20, 0), some (0x4E16, 0), some (0x4E16, 1), none, none, none, none],
     [some (0x24, 0), none, none, none, none, none, none, none],
     [none, none, none, none, none, none, none, none]]) := by decide +kernel

/-- **A control character**: three of the ten keys type one.  While it is edited the line shows `a^Bb`; what is printed about it is
what is printed about `ab`, so the printed row does not tell the two lines apart. -/
theorem C83_refuted_control : (match example3 (env table) { input := ["a", "\x02", "b", "\r", "a", "b", "\r", "\x03"].map fun k => .key (b k) } with
    | .ok x => (x.1.buffer, ((List.range 9).map fun (k : Nat) => (List.range 8).map fun (i : Nat) =>
        ((fourRows.run (plainColumns table) (bytesOf table x.2.2.out)).cells ((fourRows.run (plainColumns table) (bytesOf table x.2.2.out)).row - k) i).map fun c => Char.ofNat c.1).drop 4)
    | .error _ => ([], [])) =
    (["a\x02b", "ab"].map b,
     [[some 'T', some 'E', some 'X', some 'T', some '=', some 'a', some 'b', none],
      [some '>', some ' ', some 'a', some 'b', none, none, none, none],
      [none, none, none, none, none, none, none, none],
      [some 'T', some 'E', some 'X', some 'T', some '=', some 'a', some 'b', none],
      [some '>', some ' ', some 'a', some '^', some 'B', some 'b', none, none]]) := by decide +kernel

end

end Readline
