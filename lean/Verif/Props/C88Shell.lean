import Verif.Props.C88
import Verif.Props.C85
import Verif.Props.C76Returns
/-!
# C88 for the whole run of the example shell

examples/example2.go: also when the commands it runs leave the terminal writing in some colour, the terminal writes plainly whenever a key is awaited and
when the shell has ended.
-/
namespace Readline
open Spec

variable {E : Env} {w : World} {σ : Type} {Y : System σ} {adv : Rune → Int}

/-- The commands and the lists of file names are written in whole characters and leave no sequence unfinished, whatever pen they leave.  Commands may
also press keys, and change the files and the size of the terminal. -/
def Spec.Closing (adv : Rune → Int) (Y : System σ) : Prop :=
  (∀ argv x, ∃ b, (Y.exec argv x).2.out = x.2.out ++ [.lit b] ∧ Rounded Pen.sgr adv b) ∧ ∀ l, Rounded Pen.sgr adv (Y.box l)

/-- The terminal of which nothing is known. -/
structure Spec.Simply (E : Env) (rw : Bool → Rune → Int) (vs : Rune → Bool) (e : Environ) : Prop where
  cfg : E.cfg = startCfg rw vs e
  unnamed : Unnamed e
  controls : ∀ b r, 0x7F ≤ r → r ≤ 0x9F → rw b r = 0

/-- What is written by a call can be cut off behind it. -/
theorem painted_valid {P : Type} {ren : List Nat → P → P} {S : P → Prop} (hr : PenRule ren adv E S) {o ts a b c : List Tok}
    (h1 : o ++ ts = o ++ (a ++ b ++ c)) (ht : ∀ t ∈ ts, Given E t ∨ Harmless (t.bytes E.cfg)) (ha : Strewn E a) (hb : Lined E b) (hc : Paced E c) :
    ValidUtf8 (bytesOf E.cfg ts) := by
  have e : ts = a ++ b ++ c := List.append_cancel_left h1
  subst e
  have hg : ∀ m, Tok.glyph m ∈ a ++ b ++ c → Harmless (m.print E.cfg) := fun m hm => (ht _ hm).resolve_left id
  rw [bytesOf_append, bytesOf_append]
  exact ValidUtf8.append (ValidUtf8.append (strewn_pen hr ha fun m hm => hg m (by simp [hm])).1
    (lined_pen (ren := ren) (adv := adv) hb fun m hm => hg m (by simp [hm])).1) (paced_pen hr hc fun m hm => hg m (by simp [hm])).1

/-- **Editors that complete file names** keep the pen as others do (`C88_partial`), where the search for names returns. -/
theorem C88_files_partial {P : Type} {ren : List Nat → P → P} {S : P → Prop} {U : Uni} {rd : ReadDir} {post k : Bytes} {box : Option (List Bytes → Bytes)}
    (hb : BuiltinKeys E) (hK : Colourful E.coloring) (hi : Inert (bindAnswering U rd post box k E) w)
    (hr : PenRule ren adv (bindAnswering U rd post box k E) S) (g : Glass P) (hm : g.vt.mode = .ground) :
    (∀ s, Reachable (bindFiles U rd post box k E) w s → ∃ ts, s.out = w.out ++ ts ∧ (g.run ren adv (bytesOf E.cfg ts)).vt.mode = .ground ∧
      S (g.run ren adv (bytesOf E.cfg ts)).pen) ∧
    ∀ s r, readLine (bindFiles U rd post box k E) w = .ok (s, r) → ∃ ts, s.out = w.out ++ ts ∧ (g.run ren adv (bytesOf E.cfg ts)).vt.mode = .ground ∧
      S (g.run ren adv (bytesOf E.cfg ts)).pen := by
  obtain ⟨h1, h2⟩ := C88_partial (E := bindAnswering U rd post box k E) (answering_builtin hb) hK hi hr g hm
  exact ⟨fun s h => h1 s (reachable_answers h), fun s r h => h2 s r (readLine_answers h)⟩

/-! ## The shell -/

/-- The editor of the shell, with a completer that always answers. -/
def tinyAnswering (Y : System σ) (E : Env) (x : σ) (l : List Bytes) : Env :=
  bindAnswering Y.uni (Y.rd x) [0x20] (some Y.box) [0x09] (tinyBase E l)

theorem shell_rule (hY : Closing adv Y) (x : σ) (l : List Bytes) : PenRule Pen.sgr adv (tinyAnswering Y E x l) (fun q => q = {}) where
  default p := by
    show Pen.sgr colorReset.params p = {}
    rw [reset_params]
    rfl
  said b hb := by
    rcases hb with h | h | h | h | h | h | ⟨k, K, f, l', e1, e2, rfl⟩
    · exact shell_says (E := E) l b (.inl h)
    · exact shell_says (E := E) l b (.inr (.inl h))
    · exact shell_says (E := E) l b (.inr (.inr (.inl h)))
    · exact shell_says (E := E) l b (.inr (.inr (.inr (.inl h))))
    · exact shell_says (E := E) l b (.inr (.inr (.inr (.inr (.inl h)))))
    · exact shell_says (E := E) l b (.inr (.inr (.inr (.inr (.inr (.inl h))))))
    · rcases lookup_files (U := Y.uni) (rd := Y.rd x) (post := [0x20]) (box := some Y.box) (k := [0x09]) (tinyBase E l) k with ⟨hne, -⟩ | ⟨rfl, -, e3⟩
      · refine absurd ?_ (tinyBase_completion E l k K)
        rw [← e1]
        simp [lookupCommand, tinyAnswering, bindAnswering, KeyMap.lookup, hne]
      · rw [tinyAnswering, e3] at e1
        cases e1
        cases e2
        exact hY.2 l'
  predicted := fun _ => ⟨sgr_rounded blueItalic_sgr.1, sgr_rounded blueItalic_sgr.2⟩
  ends := fun f rc hf => by cases hf

variable {rw : Bool → Rune → Int} {vs : Rune → Bool} {e : Environ}

/-- During a call. -/
theorem shell_state (hE : Simply E rw vs e) (hY : Closing adv Y) {x : σ} {l : List Bytes} {s : St} (h : Reachable (tinyEnv Y E x l) w s) :
    ∃ ts, s.out = w.out ++ ts ∧ ∀ p, Brings Pen.sgr adv (bytesOf E.cfg ts) p {} := by
  have h' : Reachable (tinyAnswering Y E x l) w s := reachable_answers h
  have hb : BuiltinKeys (tinyAnswering Y E x l) := answering_builtin (tinyBase_builtin E l)
  obtain ⟨ts, h1, h2⟩ := (C61_unnamed (E := tinyAnswering Y E x l) hE.cfg hE.unnamed hE.controls hb).1 s h'
  obtain ⟨a, b, c, e', ha, hb', hc⟩ := session_paced hb C46_vimBatch h'
  exact ⟨ts, h1, fun p g hm _ => painted_pen (shell_rule hY x l) (h1.symm.trans e') h2 ha hb' hc g hm⟩

/-- A whole call. -/
theorem shell_call (hE : Simply E rw vs e) (hY : Closing adv Y) {x : σ} {l : List Bytes} {s : St} {r : RLRes}
    (h : readLine (tinyEnv Y E x l) w = .ok (s, r)) :
    ∃ ts, s.out = w.out ++ ts ∧ ValidUtf8 (bytesOf E.cfg ts) ∧ ∀ p, Brings Pen.sgr adv (bytesOf E.cfg ts) p {} := by
  have h' : readLine (tinyAnswering Y E x l) w = .ok (s, r) := readLine_answers h
  have hb : BuiltinKeys (tinyAnswering Y E x l) := answering_builtin (tinyBase_builtin E l)
  obtain ⟨ts, h1, h2⟩ := (C61_unnamed (E := tinyAnswering Y E x l) hE.cfg hE.unnamed hE.controls hb).2 s r h'
  obtain ⟨a, b, c, e', ha, hb', hc⟩ := result_paced hb C46_vimBatch h'
  exact ⟨ts, h1, painted_valid (shell_rule (adv := adv) hY x l) (h1.symm.trans e') h2 ha hb' hc,
    fun p g hm _ => painted_pen (shell_rule hY x l) (h1.symm.trans e') h2 ha hb' hc g hm⟩

/-- Up to a call. -/
theorem shell_closing (hE : Simply E rw vs e) (hY : Closing adv Y) {c c' : Container} {x x' : σ × World} {ran : List (List Bytes)}
    (h : Underway Y E c x ran c' x') : ∃ ts, x'.2.out = x.2.out ++ ts ∧ Rounded Pen.sgr adv (bytesOf E.cfg ts) := by
  induction h with
  | start => exact ⟨[], by simp, ValidUtf8.nil, fun p => ⟨p, brings_nil p⟩⟩
  | @blank c x s r ran c' x' hrl hn hf hu ih =>
    obtain ⟨ts, h1, h2, h3⟩ := shell_call (adv := adv) hE hY hrl
    obtain ⟨us, g2, g3⟩ := ih
    refine ⟨ts ++ us, by rw [g2, ← List.append_assoc, ← h1]; rfl, ?_⟩
    rw [bytesOf_append]
    exact Rounded.append ⟨h2, fun p => ⟨_, h3 p⟩⟩ g3
  | @run c x s r ran c' x' hrl hn hf hu ih =>
    obtain ⟨ts, h1, h2, h3⟩ := shell_call (adv := adv) hE hY hrl
    obtain ⟨b, b1, b2⟩ := hY.1 (fields r.text) (x.1, s.world)
    obtain ⟨us, g2, g3⟩ := ih
    refine ⟨ts ++ [.lit b] ++ us, ?_, ?_⟩
    · rw [g2, b1, ← List.append_assoc, ← List.append_assoc, ← h1]
      rfl
    · rw [bytesOf_append, bytesOf_append]
      refine Rounded.append (Rounded.append ⟨h2, fun p => ⟨_, h3 p⟩⟩ ?_) g3
      rw [show bytesOf E.cfg [.lit b] = b ++ [] from rfl, List.append_nil]
      exact b2

theorem banner_rounded {P : Type} {ren : List Nat → P → P} : Rounded ren adv tinyBanner := text_rounded (ascii_over (by decide))

/-- **Whenever the example shell waits for a key the terminal writes plainly**, whatever it wrote with when the shell was started, and whatever colours the
commands have left. -/
theorem C88_prompt_partial (hE : Simply E rw vs e) (hY : Closing adv Y) {x x' : σ × World} {ran : List (List Bytes)} {c' : Container}
    (hu : Underway Y E {} (x.1, x.2.print tinyBanner) ran c' x') {s : St}
    (hs : Reachable (tinyEnv Y E x'.1 c'.buffer) x'.2 s) (g : Glass Pen) (hm : g.vt.mode = .ground) :
    ∃ ts, s.out = x.2.out ++ ts ∧ (g.run Pen.sgr adv (bytesOf E.cfg ts)).vt.mode = .ground ∧ (g.run Pen.sgr adv (bytesOf E.cfg ts)).pen = {} := by
  obtain ⟨us, h2, h3⟩ := shell_closing (adv := adv) hE hY hu
  obtain ⟨ts, e1, key⟩ := shell_state (adv := adv) hE hY hs
  refine ⟨.lit tinyBanner :: us ++ ts, by rw [e1, h2]; show x.2.out ++ [.lit tinyBanner] ++ us ++ ts = _; simp, ?_⟩
  have hR := (banner_rounded (ren := Pen.sgr) (adv := adv)).append h3
  obtain ⟨q, hq⟩ := hR.2 g.pen
  have := Brings.append hR.1 hq (key q) g hm rfl
  rw [bytesOf_append, show bytesOf E.cfg (.lit tinyBanner :: us) = tinyBanner ++ bytesOf E.cfg us from rfl]
  exact this

/-- **When the example shell has ended** the terminal writes plainly, unless it was ended by an error of the terminal whose message has escape sequences. -/
theorem C88_main_partial (hE : Simply E rw vs e) (hY : Closing adv Y) {x y : σ × World} {ran : List (List Bytes)} {c : Container} {err : RLErr}
    (h : main2 Y E x = .ok (ran, c, err, y)) (he : ∀ t, err = .tty t → ValidUtf8 t ∧ Over (fun r => r ≠ 0x1B) t) (g : Glass Pen) (hm : g.vt.mode = .ground) :
    ∃ ts, y.2.out = x.2.out ++ ts ∧ (g.run Pen.sgr adv (bytesOf E.cfg ts)).vt.mode = .ground ∧ (g.run Pen.sgr adv (bytesOf E.cfg ts)).pen = {} := by
  unfold main2 at h
  obtain ⟨⟨ran', c', err', z⟩, hz, h⟩ := bind_ok.mp h
  cases h
  obtain ⟨x', s, r, hu, hrl, h1, h2, rfl⟩ := tinyLoop_underway _ hz
  obtain ⟨us, g2, g3⟩ := shell_closing (adv := adv) hE hY hu
  obtain ⟨ts, e1, e2, e3⟩ := shell_call (adv := adv) hE hY hrl
  refine ⟨.lit tinyBanner :: us ++ ts ++ [.lit (replyErr err)], ?_, ?_⟩
  · show s.out ++ [.lit (replyErr err)] = _
    rw [e1, g2]
    show x.2.out ++ [.lit tinyBanner] ++ us ++ ts ++ _ = _
    simp
  · have hR := (banner_rounded (ren := Pen.sgr) (adv := adv)).append g3
    obtain ⟨q, hq⟩ := hR.2 g.pen
    have hlast : Brings Pen.sgr adv (replyErr err) {} {} := by
      have hmsg : ValidUtf8 err.message ∧ Over (fun r => r ≠ 0x1B) err.message := by
        cases err with
        | nil => exact absurd rfl h2
        | tty t => exact he t rfl
        | ctrlC => exact ascii_over (b := [0x5E, 0x43]) (by decide)
        | eof => exact ascii_over (b := [0x45, 0x4F, 0x46]) (by decide)
      have hbeg : ValidUtf8 [0x45, 0x52, 0x52, 0x3D] ∧ Over (fun r => r ≠ 0x1B) [0x45, 0x52, 0x52, 0x3D] := ascii_over (by decide)
      exact .append (ValidUtf8.append hbeg.1 hmsg.1) (.append hbeg.1 (brings_text hbeg.2 _) (brings_text hmsg.2 _))
        (brings_text (ascii_over (b := [0x0A]) (by decide)).2 _)
    have := Brings.append (ValidUtf8.append hR.1 e2) (Brings.append hR.1 hq (e3 q)) hlast g hm rfl
    rw [bytesOf_append, bytesOf_append, show bytesOf E.cfg (.lit tinyBanner :: us) = tinyBanner ++ bytesOf E.cfg us from rfl,
      show bytesOf E.cfg [.lit (replyErr err)] = replyErr err ++ [] from rfl, List.append_nil]
    exact this

/-! ## Cases -/

section
open Example

/-- Every command complains in red and leaves the terminal so.  Names are listed below each other, what is not a visible ASCII character as `?`. -/
def redSystem : System Unit :=
  { tinySystem with
    exec := fun _ x => (x.1, x.2.print (b "\x1B[31mno\n"))
    box := fun l => (l.map fun n => n.map (fun x => if 0x20 ≤ x ∧ x < 0x7F then x else 0x3F) ++ [0x0A]).flatten }

theorem redSystem_closing : Closing adv redSystem := by
  refine ⟨fun argv x => ⟨b "\x1B[31mno\n", rfl, ?_⟩, fun l => text_rounded (ascii_over fun x hx => ?_)⟩
  · rw [show b "\x1B[31mno\n" = b "\x1B[31m" ++ b "no\n" by decide +kernel]
    exact (sgr_rounded (.inr ⟨[0x33, 0x31], by decide +kernel, by decide⟩)).append (text_rounded (ascii_over (by decide +kernel)))
  · have : (0x20 ≤ x ∧ x < 0x7F) ∨ x = 0x0A := by
      simp only [redSystem, List.mem_flatten, List.mem_map] at hx
      obtain ⟨_, ⟨n, -, rfl⟩, hx⟩ := hx
      rcases List.mem_append.mp hx with hx | hx
      · obtain ⟨y, -, rfl⟩ := List.mem_map.mp hx
        left
        split
        · assumption
        · decide
      · exact .inr (by simpa using hx)
    rcases this with ⟨h1, h2⟩ | rfl
    · have h1 : 0x20 ≤ x.toNat := h1
      have h2 : x.toNat < 0x7F := h2
      exact ⟨show x.toNat < 0x80 by omega, by omega⟩
    · decide

theorem inCode_simply : Simply (env (started inCode)) (orgRuneWidth tables) (fun r => 0xFE00 ≤ r ∧ r ≤ 0xFE0F) inCode :=
  ⟨rfl, inCode_unnamed, fun _ _ h1 h2 => c1_width h1 h2⟩

/-- The hypotheses are met by every session of that shell. -/
example {w : World} {ran : List (List Bytes)} {c : Container} {y : Unit × World}
    (h : main2 redSystem (env (started inCode)) ((), w) = .ok (ran, c, .eof, y)) :=
  C88_main_partial (adv := fun _ => 1) inCode_simply redSystem_closing h (fun t ht => by cases ht) glassRow rfl

/-- One call of that shell's editor, for `C88_files_partial`. -/
example (w : World) (l : List Bytes) :=
  C88_files_partial (adv := fun _ => 1) (w := w) (E := tinyBase (env (started inCode)) l) (U := uni) (rd := redSystem.rd ()) (post := [0x20]) (k := [0x09])
    (box := some redSystem.box) (tinyBase_builtin _ l) C46_vimBatch
    (C61_unnamed (rw := orgRuneWidth tables) (vs := fun r => 0xFE00 ≤ r ∧ r ≤ 0xFE0F) (e := inCode) rfl inCode_unnamed (fun _ _ h1 h2 => c1_width h1 h2)
      (answering_builtin (tinyBase_builtin _ l)))
    (shell_rule (Y := redSystem) redSystem_closing () l) glassRow rfl

/-- Two commands are run, a file name is completed.  The terminal writes in red behind each of the commands, and plainly in the end. -/
example : (match main2 redSystem (env (started inCode)) ((), { input := keys ["l", "\r", "x", " ", "n", "\t", "\r", "\x04"] }) with
    | .ok z => some (z.1, (glassRow.run Pen.sgr (fun _ => 1) (bytesOf (started inCode) z.2.2.2.2.out)).pen, z.2.2.2.2.out.count (.lit (b "\x1B[31mno\n")))
    | .error _ => none) = some ([[b "l"], [b "x", b "notes"]], {}, 2) ∧
    (glassRow.run Pen.sgr (fun _ => 1) (b "\x1B[31mno\n")).pen = ⟨31, 49, false⟩ := by decide +kernel

end

end Readline
