import Verif.Proof.Fields
import Verif.Props.C62
import Verif.Props.C70
import Verif.Props.C76
/-!
# C77: the shell of examples/example2.go runs what is entered

`C77_fields`: `strings.Fields` finds the words.  `C77_runs`: whatever keys are pressed, whatever files there are and whatever
the commands do, the commands that are run are the words of the lines in the history, one command for each line, in order.
`C77_script_partial`: a user who enters lines without the Tab key gets just these run, and the shell goes on until Ctrl-D.
-/
namespace Readline
open Spec

/-- The words of a text. -/
theorem C77_fields {t : List Char} {ws : List (List Char)} (h : Spec.Fields t ws) : fields (utf8 t) = ws.map utf8 := by
  have := fieldsLoop_chars t _ none (Nat.le_refl _)
  rw [Option.map_none, fieldsChars_eq h] at this
  exact this

/-- Every text has words, and in one way only. -/
theorem C77_unique (t : List Char) : ∃ ws, Spec.Fields t ws ∧ ∀ ws', Spec.Fields t ws' → ws' = ws := by
  obtain ⟨ws, h⟩ := fields_exist t
  exact ⟨ws, h, fun ws' h' => by rw [← fieldsChars_eq h', fieldsChars_eq h]⟩

/-- **C77** for every run: the commands are the words of the lines that were added to the history, in order. -/
theorem C77_runs {Y : System σ} {E : Env} {n : Nat} {c c' : Container} {x x' : σ × World} {ran : List (List Bytes)} {err : RLErr}
    (h : tinyLoop Y E n c x = .ok (ran, c', err, x')) :
    err ≠ .nil ∧ ∃ lines : List (List Char × List (List Char)), (∀ l ∈ lines, Spec.Fields l.1 l.2 ∧ l.2 ≠ []) ∧
      c'.buffer = c.buffer ++ lines.map (fun l => utf8 l.1) ∧ ran = lines.map (fun l => l.2.map utf8) := by
  induction n generalizing c x ran with
  | zero => cases h
  | succ n ih =>
    rw [tinyLoop] at h
    obtain ⟨⟨s, r⟩, hr, h⟩ := bind_ok.mp h
    dsimp only at h
    cases he : r.err with
    | nil =>
      rw [he] at h
      dsimp only at h
      obtain ⟨t, ht⟩ := C70_valid hr
      obtain ⟨ws, hws⟩ := fields_exist t
      have hf := C77_fields hws
      rw [← ht] at hf
      cases ws with
      | nil =>
        rw [hf] at h
        exact ih h
      | cons v ws =>
        rw [hf, List.map_cons] at h
        obtain ⟨⟨ran', c1, err1, x1⟩, h1, h⟩ := bind_ok.mp h
        simp only [pure_ok, Prod.mk.injEq] at h
        obtain ⟨rfl, rfl, rfl, rfl⟩ := h
        obtain ⟨h2, lines, h3, h4, h5⟩ := ih h1
        refine ⟨h2, (t, v :: ws) :: lines, ?_, ?_, ?_⟩
        · intro l hl
          rcases List.mem_cons.mp hl with rfl | hl
          · exact ⟨hws, by simp⟩
          · exact h3 l hl
        · rw [h4]
          show (c.buffer ++ [r.text]) ++ _ = _
          rw [ht]
          simp
        · rw [h5]; rfl
    | _ =>
      rw [he] at h
      cases h
      exact ⟨by simp, [], by simp, by simp, rfl⟩

/-! ## Without the Tab key -/

theorem step_unbound {E : Env} {km : KeyMap} {s : St}
    (hl : ∀ k, .key k ∈ s.input → lookupCommand { E with keyMap := km } k = lookupCommand E k) :
    step { E with keyMap := km } s = step E s := by
  unfold step
  cases hi : s.input with
  | nil => rfl
  | cons ev rest =>
    cases ev with
    | err e => rfl
    | resize w => rfl
    | key k =>
      dsimp only
      rw [hl k (by rw [hi]; simp), execCmd_map]

theorem loop_unbound {E : Env} {km : KeyMap} (hb : BuiltinKeys E) (n : Nat) : ∀ s : St,
    (∀ k, .key k ∈ s.input → lookupCommand { E with keyMap := km } k = lookupCommand E k) →
    loop { E with keyMap := km } n s = loop E n s := by
  induction n with
  | zero => intro s _; rfl
  | succ n ih =>
    intro s hl
    rw [loop, loop, step_unbound hl]
    cases hs : step E s with
    | error p => rfl
    | ok q =>
      obtain ⟨s', o⟩ := q
      cases o with
      | some r => rfl
      | none =>
        obtain ⟨ev, rest, h1, h2⟩ := step_sublist hb hs
        exact ih s' fun k hk => hl k (by rw [h1]; exact List.mem_cons_of_mem _ (h2.subset hk))

/-- Bindings of keys that are not pressed do not matter. -/
theorem readLine_unbound {E : Env} {km : KeyMap} (hb : BuiltinKeys E) {w : World}
    (hl : ∀ k, .key k ∈ w.input → lookupCommand { E with keyMap := km } k = lookupCommand E k) :
    readLine { E with keyMap := km } w = readLine E w := by
  unfold readLine
  have e : startSt { E with keyMap := km } w = startSt E w := rfl
  rw [e]
  cases h : startSt E w with
  | error p => rfl
  | ok s => exact loop_unbound hb _ s (by rw [startSt_input h]; exact hl)

theorem tinyBase_builtin (E : Env) (l : List Bytes) : BuiltinKeys (tinyBase E l) := by
  intro k f h
  exact defaultKeys_builtin E.cfg k f (by rw [← h]; rfl)

/-- Without the Tab key the shell reads its lines as the editor without file completion. -/
theorem tiny_reads {Y : System σ} {E : Env} {x : σ} {l : List Bytes} {w : World} (ht : .key [0x09] ∉ w.input) :
    readLine (tinyEnv Y E x l) w = readLine (tinyBase E l) w := by
  refine readLine_unbound (tinyBase_builtin E l) fun k hk => ?_
  have hne : k ≠ [0x09] := by rintro rfl; exact ht hk
  simp only [lookupCommand, KeyMap.lookup, hne, if_false]

/-- What the commands leave alone: the keyboard, the window and the clipboard. -/
def Spec.HandsOff (Y : System σ) : Prop := ∀ argv x, (Y.exec argv x).2 = { x.2 with out := (Y.exec argv x).2.out }

/-- Does the line have words? -/
def Spec.hasWords (t : Bytes) : Bool := decide (∃ r ∈ runesOf t, isSpaceRune r = false)

theorem tinyBase_prompt {E : Env} {l : List Bytes} (h1 : Plain E.cfg 0x24) (h2 : Plain E.cfg 0x20) (w1 : E.cfg.width 0x24 = 1)
    (w2 : E.cfg.width 0x20 = 1) (n : Nat) : promptWidth (tinyBase E l) n = 2 := by
  have e : cutEscapeSequenceAndOldLine [0x1B, 0x5B, 0x31, 0x3B, 0x33, 0x36, 0x6D, 0x24, 0x20, 0x1B, 0x5B, 0x30, 0x6D] =
      [0x24, 0x20] := by decide +kernel
  show (mojiWidthAndCount E.cfg (cutEscapeSequenceAndOldLine _)).1 = 2
  rw [e, C06_width_partial]
  · have hl : ((stringToMoji E.cfg [0x24, 0x20]).map (Moji.width E.cfg)).sum = 2 := by
      have v1 : isZeroWidthJoin E.cfg 0x20 = false := by simp [isZeroWidthJoin]
      have v2 : isEmojiModifier E.cfg 0x20 = false := by simp [isEmojiModifier]
      have v3 : ∀ r, Plain E.cfg r → isVariationSelectorLike E.cfg r = false := by
        intro r h
        cases hx : isVariationSelectorLike E.cfg r with
        | false => rfl
        | true =>
          unfold isVariationSelectorLike at hx
          rw [Bool.and_eq_true] at hx
          exact absurd (Or.inr (Or.inl hx)) h.alone
      have d1 : decodeRune [0x24, 0x20] = (0x24, 1) := by decide
      have d2 : decodeRune [0x20] = (0x20, 1) := by decide
      have m1 : rune2moji E.cfg 0x24 0 = .raw 0x24 := by simp [rune2moji, isToBeEscaped, v3 _ h1, w1]
      have m2 : ∀ p, rune2moji E.cfg 0x20 p = .raw 0x20 := by intro p; simp [rune2moji, isToBeEscaped, v3 _ h2, w2]
      simp [stringToMoji, stringToMojiLoop, d1, d2, v1, v2, v3 _ h2, m1, m2, Moji.width, w1, w2]
    exact hl
  · intro pre post hpp
    have : runesOf [0x24, 0x20] = [0x24, 0x20] := by decide +kernel
    rw [this] at hpp
    have : (9 : Nat) ∈ [0x24, 0x20] := by rw [hpp]; simp
    simp at this

theorem hasWords_fields {t : Bytes} (h : ValidUtf8 t) : hasWords t = true ↔ fields t ≠ [] := by
  obtain ⟨cs, rfl⟩ := h
  obtain ⟨ws, hw⟩ := fields_exist cs
  rw [C77_fields hw]
  unfold hasWords
  rw [decide_eq_true_eq, runesOf_utf8]
  cases hw with
  | none h =>
    constructor
    · rintro ⟨r, hr, h'⟩
      obtain ⟨c, hc, rfl⟩ := List.mem_map.mp hr
      rw [(isSpaceRune_iff c).mpr (h c hc)] at h'
      cases h'
    · intro h; exact absurd rfl h
  | @word a w t ws ha hne hw =>
    refine ⟨fun _ => by simp, fun _ => ?_⟩
    obtain ⟨c, w', rfl⟩ := List.exists_cons_of_ne_nil hne
    refine ⟨c.toNat, by simp, ?_⟩
    cases hx : isSpaceRune c.toNat with
    | false => rfl
    | true => exact absurd ((isSpaceRune_iff c).mp hx) (hw c (by simp))

/-- The conditions for a run without crashes: plain texts and keys, no Tab and no Ctrl-T, room for eight columns. -/
structure Spec.TinyFine (E : Env) (h : List Bytes) (w : World) : Prop where
  texts : ∀ t, t ∈ h ∨ w.clip = some t ∨ FromKey (tinyBase E []) w t → Over (Plain E.cfg) t
  noTab : .key [0x09] ∉ w.input
  noSwap : .key [0x14] ∉ w.input
  wide : 7 < w.termWidth
  resized : ∀ n, .resize n ∈ w.input → 7 < n
  cursor : 0 ≤ w.cursor

/-- What the shell needs of the settings: the clipboard keeps what is put in, quotation mark, blank and `$` are plain, and blank
and `$` take one column. -/
structure Spec.TinyCfg (E : Env) : Prop where
  clip : E.clipSet = fun _ t => some t
  quote : Plain E.cfg 0x22
  dollar : Plain E.cfg 0x24
  blank : Plain E.cfg 0x20
  dollar1 : E.cfg.width 0x24 = 1
  blank1 : E.cfg.width 0x20 = 1

theorem tinyBase_completion (E : Env) (l : List Bytes) (q : Bytes) (K : Completing) : lookupCommand (tinyBase E l) q ≠ .completion K :=
  env_completion rfl rfl

/-- One line is read, and the conditions hold again. -/
theorem tiny_line {E : Env} {h : List Bytes} {w : World} (hE : TinyCfg E) (hf : TinyFine E h w) :
    ∃ s r, readLine (tinyBase E h) w = .ok (s, r) ∧ (r.err = .nil → s.input.length < w.input.length ∧
      TinyFine E (h ++ [r.text]) s.world ∧ TinyFine E h s.world) := by
  have hb := tinyBase_builtin E h
  have ht : ∀ t, t = (tinyBase E h).default ∨ t ∈ h ∨ w.clip = some t ∨ FromKey (tinyBase E h) w t → Over (Plain E.cfg) t := by
    rintro t (h | h)
    · rw [h]; exact over_nil
    · exact hf.texts t h
  have ho : Modest (Plain E.cfg) (tinyBase E h) w :=
    modest_two (E := tinyBase E h) (tinyBase_completion E h) (predictsOver_none rfl) hE.clip
      (tinyBase_prompt hE.dollar hE.blank hE.dollar1 hE.blank1) ht hE.quote hf.wide hf.resized
  have hsw : ∀ k, .key k ∈ w.input → lookupCommand (tinyBase E h) k ≠ .swapChar :=
    fun k hk hc => hf.noSwap (env_swap (E := tinyBase E h) rfl rfl hc ▸ hk)
  cases hr : readLine (tinyBase E h) w with
  | error p =>
    obtain ⟨k, K, h1, -⟩ := C01_ordinary_partial hb hf.cursor ho hsw hr
    exact absurd h1 (tinyBase_completion E h k K)
  | ok p =>
    obtain ⟨s, r⟩ := p
    refine ⟨s, r, rfl, fun hre => ?_⟩
    obtain ⟨hot, hfrom⟩ := result_from hb ho.sources hr
    obtain ⟨t, x, htr, hti, htc, hsub⟩ := readLine_takes hb hr hre
    dsimp only at hti htc hsub
    have hin : s.input.Sublist w.input := (List.sublist_cons_self _ _).trans hsub
    have hlen := hsub.length_le
    rw [List.length_cons] at hlen
    obtain ⟨_, hcalm⟩ := calm_inv hb hf.cursor (CalmReachable.of_reachable (fun s h => ordinary_calm hb ho hsw h) htr)
    have hc0 : 0 ≤ s.cursor := by
      rw [htc]
      have := hcalm.inside
      unfold St.inside at this
      omega
    have hwid : s.termWidth = w.termWidth ∨ .resize s.termWidth ∈ w.input := by
      obtain ⟨t', htr', hst⟩ := readLine_reachable hr
      have hbb := fun k => BuiltinKeys.builtin hb k
      exact ((reachable_says hbb true htr').trans ((step_says hbb t').ok hst)).width
    have hwide : 7 < s.termWidth := by
      rcases hwid with h | h
      · rw [h]; exact hf.wide
      · exact hf.resized _ h
    have hkey : ∀ t, s.clip = some t ∨ FromKey (tinyBase E []) s.world t → Over (Plain E.cfg) t := by
      rintro t (h | h)
      · exact hfrom.clip t h
      · refine hf.texts t (Or.inr (Or.inr ?_))
        rcases h with ⟨q, hq', hx⟩ | ⟨⟨q, hq', hx⟩, hy⟩
        · exact Or.inl ⟨q, hin.subset hq', hx⟩
        · exact Or.inr ⟨⟨q, hin.subset hq', hx⟩, hin.subset hy⟩
    have fine : ∀ h', (∀ t ∈ h', t ∈ h ∨ t = r.text) → TinyFine E h' s.world := fun h' hh =>
      ⟨fun t ht' => by
        rcases ht' with h1 | h1
        · rcases hh t h1 with h1 | h1
          · exact hf.texts t (.inl h1)
          · rw [h1]; exact hot
        · exact hkey t h1,
       fun h1 => hf.noTab (hin.subset h1), fun h1 => hf.noSwap (hin.subset h1), hwide, fun m h1 => hf.resized m (hin.subset h1), hc0⟩
    refine ⟨by omega, fine _ fun t ht' => ?_, fine _ fun t ht' => .inl ht'⟩
    rcases List.mem_append.mp ht' with h1 | h1
    · exact .inl h1
    · exact .inr (List.mem_singleton.mp h1)

theorem handsOff_fine {Y : System σ} (hY : HandsOff Y) {E : Env} {h : List Bytes} {argv : List Bytes} {x : σ} {w : World}
    (hf : TinyFine E h w) : TinyFine E h (Y.exec argv (x, w)).2 := by
  rw [hY argv (x, w)]
  exact ⟨hf.texts, hf.noTab, hf.noSwap, hf.wide, hf.resized, hf.cursor⟩

/-- The shell goes on whatever keys are pressed, but for Tab and Ctrl-T. -/
theorem C77_goes_on_partial {Y : System σ} (hY : HandsOff Y) {E : Env} (hE : TinyCfg E) {n : Nat} {c : Container} {x : σ × World}
    (hf : TinyFine E c.buffer x.2) (hn : x.2.input.length < n) : ∃ r, tinyLoop Y E n c x = .ok r := by
  induction n generalizing c x with
  | zero => omega
  | succ n ih =>
    obtain ⟨s, r, h1, h2⟩ := tiny_line hE hf
    rw [tinyLoop, tiny_reads hf.noTab, h1]
    show ∃ q, (match r.err with
      | .nil =>
        match fields r.text with
        | [] => tinyLoop Y E n c (x.1, s.world)
        | argv => do
          let (ran, rest) ← tinyLoop Y E n (c.add r.text) (Y.exec argv (x.1, s.world))
          return (argv :: ran, rest)
      | err => pure ([], c, err, (x.1, s.world))) = .ok q
    cases hre : r.err with
    | nil =>
      obtain ⟨hlen, hfine, hfine'⟩ := h2 hre
      dsimp only
      cases hfl : fields r.text with
      | nil =>
        dsimp only
        refine ih hfine' ?_
        show s.input.length < n
        omega
      | cons v argv =>
        dsimp only
        have hfx := handsOff_fine hY (argv := v :: argv) (x := x.1) hfine
        have hin : (Y.exec (v :: argv) (x.1, s.world)).2.input = s.input := by rw [hY (v :: argv) (x.1, s.world)]; rfl
        obtain ⟨⟨ran, rest⟩, hq⟩ := ih (c := c.add r.text) (x := Y.exec (v :: argv) (x.1, s.world)) hfx (by rw [hin]; omega)
        exact ⟨(((v :: argv) :: ran, rest)), by rw [hq]; rfl⟩
    | _ => exact ⟨_, rfl⟩

/-- The history at the end is the lines of the script. -/
theorem tiny_script {Y : System σ} (hY : HandsOff Y) {E : Env} {h h' : List Bytes} {evs rest : List Ev}
    (hs : Script (tinyBase E []) hasWords h evs h' (.key [0x04] :: rest)) (hwl : WholeLines E.cfg h)
    {x : σ × World} (hc : 0 ≤ x.2.cursor) (hi : x.2.input = evs) (htab : .key [0x09] ∉ evs) {n : Nat}
    {r : List (List Bytes) × Container × RLErr × (σ × World)} (hr : tinyLoop Y E n ⟨h⟩ x = .ok r) :
    r.2.1.buffer = h' ∧ r.2.2.1 = .eof ∧ r.2.2.2.2.input = rest := by
  generalize hleft : Ev.key [0x04] :: rest = left at hs
  induction hs generalizing x n r with
  | @done h left =>
    subst hleft
    cases n with
    | zero => cases hr
    | succ n =>
      rw [tinyLoop, tiny_reads (by rw [hi]; exact htab)] at hr
      obtain ⟨p, hp, hr⟩ := bind_ok.mp hr
      obtain ⟨a1, a2⟩ := readLine_abort (E := tinyBase E h) rfl rfl hi hp
      obtain ⟨s, t⟩ := p
      dsimp only at a1 a2 hr
      rw [a1] at hr
      cases hr
      exact ⟨rfl, rfl, a2⟩
  | @line h evs cs enter rest' h' left he hen _ ih =>
    cases n with
    | zero => cases hr
    | succ n =>
      rw [tinyLoop, tiny_reads (by rw [hi]; exact htab)] at hr
      obtain ⟨p, hp, hr⟩ := bind_ok.mp hr
      obtain ⟨a1, a2, a3, -⟩ := C62_line_partial (tinyBase_builtin E h) hwl (enters_history he h) hen rfl hc hi hp
      obtain ⟨s, t⟩ := p
      dsimp only at a1 a2 a3 hr
      subst a1
      dsimp only at hr
      have htab' : .key [0x09] ∉ rest' := fun h1 => htab (by simp [h1])
      have hwl' : WholeLines E.cfg (if hasWords (utf8 cs) then h ++ [utf8 cs] else h) := by
        intro ds hds
        split at hds
        · rcases List.mem_append.mp hds with hds | hds
          · exact hwl ds hds
          · rw [List.mem_singleton] at hds
            rw [utf8_injective hds]
            exact enters_whole (E := tinyBase E []) hwl he
        · exact hwl ds hds
      have hiff := hasWords_fields (t := utf8 cs) ⟨cs, rfl⟩
      cases hfl : fields (utf8 cs) with
      | nil =>
        rw [hfl] at hr
        dsimp only at hr
        have hk : hasWords (utf8 cs) = false := by
          cases hx : hasWords (utf8 cs) with
          | false => rfl
          | true => exact absurd hfl (hiff.mp hx)
        refine ih (x := (x.1, s.world)) (n := n) hwl' a3 a2 htab' ?_ hleft
        rw [hk]
        exact hr
      | cons v argv =>
        rw [hfl] at hr
        dsimp only at hr
        have hk : hasWords (utf8 cs) = true := hiff.mpr (by rw [hfl]; simp)
        obtain ⟨⟨ran, q⟩, hq, hr⟩ := bind_ok.mp hr
        cases pure_ok.mp hr
        have hx := hY (v :: argv) (x.1, s.world)
        refine ih (x := Y.exec (v :: argv) (x.1, s.world)) (n := n) (r := (ran, q)) hwl' (by rw [hx]; exact a3) (by rw [hx]; exact a2) htab' ?_ hleft
        rw [hk]
        exact hq

/-- **C77** for a user who enters lines in whatever ways, but without Tab: the shell runs the words of each line that has
any, in order, and ends with Ctrl-D. -/
theorem C77_script_partial {Y : System σ} (hY : HandsOff Y) {E : Env} (hE : TinyCfg E) {h' : List Bytes} {rest : List Ev}
    {x : σ × World} (hf : TinyFine E [] x.2) (hs : Script (tinyBase E []) hasWords [] x.2.input h' (.key [0x04] :: rest)) :
    ∃ lines : List (List Char × List (List Char)), ∃ x', (∀ l ∈ lines, Spec.Fields l.1 l.2 ∧ l.2 ≠ []) ∧
      h' = lines.map (fun l => utf8 l.1) ∧ x'.2.input = rest ∧
      tinyLoop Y E (x.2.input.length + 1) {} x = .ok (lines.map (fun l => l.2.map utf8), ⟨h'⟩, .eof, x') := by
  obtain ⟨r, hr⟩ := C77_goes_on_partial hY hE (n := x.2.input.length + 1) (c := {}) hf (by omega)
  obtain ⟨a1, a2, a3⟩ := tiny_script hY hs (fun _ h => nomatch h) hf.cursor rfl hf.noTab hr
  obtain ⟨ran, ⟨l⟩, err, x'⟩ := r
  dsimp only at a1 a2 a3
  subst a1 a2
  obtain ⟨-, lines, h1, h2, h3⟩ := C77_runs hr
  refine ⟨lines, x', h1, h2, a3, ?_⟩
  rw [hr, h3]

namespace Example

/-- One directory with two files, which no command changes. -/
def tinySystem : System Unit where
  uni := uni
  rd := fun _ d => if d = b "." then some [(b "my file", false), (b "notes", false)] else none
  exec := fun _ x => x
  box := fun l => l.flatten

/-- The commands run, the history and the error of the shell given these keys. -/
def shell (ks : List String) : Option (List (List Bytes) × List Bytes × RLErr) :=
  match tinyLoop tinySystem (env plain) (ks.length + 1) {} ((), { input := keys ks }) with
  | .ok (ran, c, err, _) => some (ran, c.buffer, err)
  | .error _ => none

/-- Two commands, a line without words between them; the second is the first again. -/
example : shell ["l", "s", " ", " ", "a", "\r", " ", "\r", "\x10", "\r", "\x04"] =
    some ([[b "ls", b "a"], [b "ls", b "a"]], [b "ls  a", b "ls  a"], .eof) := by decide +kernel
/-- `cat n` and Tab. -/
example : shell ["c", "a", "t", " ", "n", "\t", "\r", "\x04"] = some ([[b "cat", b "notes"]], [b "cat notes "], .eof) := by
  decide +kernel
/-- Ctrl-C ends the shell. -/
example : shell ["l", "\x03", "l", "\r"] = some ([], [], .ctrlC) := by decide +kernel

example : HandsOff tinySystem := fun _ _ => rfl
example : Spec.Fields " a  bc".toList ["a".toList, "bc".toList] :=
  .word (a := [' ']) (w := ['a']) (t := "  bc".toList) (by decide) (by decide) (by decide) (by decide)
    (.word (a := [' ', ' ']) (w := ['b', 'c']) (t := []) (by decide) (by decide) (by decide) (by simp) (.none (by simp)))
example : TinyCfg (env plain) :=
  ⟨rfl, ⟨by decide, by decide, by decide, by decide⟩, ⟨by decide, by decide, by decide, by decide⟩,
    ⟨by decide, by decide, by decide, by decide⟩, rfl, rfl⟩

end Example
open Example

/-- `cat m` and Tab: the name is put in with quotation marks, which the shell does not know. -/
theorem C77_refuted_quotes : shell ["c", "a", "t", " ", "m", "\t", "\r", "\x04"] =
    some ([[b "cat", b "\"my", b "file\""]], [b "cat \"my file\" "], .eof) := by decide +kernel

end Readline
