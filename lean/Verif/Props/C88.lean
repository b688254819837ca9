import Verif.Proof.PaceCall
import Verif.Proof.Glass
import Verif.Props.C61
import Verif.Props.C87
/-!
# C88: the pen of the terminal when a key is awaited, and after `ReadLine`

C87 shows by an example that the colour is left behind.  Here it is said for all sessions which one: the default colour of the colouring, whatever the
terminal wrote with before, and whatever colours the prompt and the predictions leave behind, since every one of them is followed by a piece
of the line before a key is awaited (`Spec.Paced`).  `C88_refuted`: a text with a sequence behind U+200D can change it where joining is enabled.
-/
namespace Readline
open Spec

variable {E : Env} {w : World} {s : St} {adv : Rune → Int} {P : Type} {ren : List Nat → P → P} {S : P → Prop}

/-! ## Bytes and the pen -/

theorem Spec.Brings.append {a b : Bytes} {p q r : P} (ha : ValidUtf8 a) (h1 : Brings ren adv a p q) (h2 : Brings ren adv b q r) :
    Brings ren adv (a ++ b) p r := by
  intro g hm hp
  obtain ⟨m1, e1⟩ := h1 g hm hp
  rw [(Reads.valid ha).grun]
  exact h2 _ m1 e1

theorem brings_nil (p : P) : Brings ren adv [] p p := by
  intro g hm hp
  have : g.run ren adv [] = g := by unfold Glass.run; rw [runesOf_nil]; rfl
  rw [this]
  exact ⟨hm, hp⟩

theorem erase_mode (v : Vt) (n : Nat) (a b c : Int → Int → Bool) :
    (match n with | 0 => v.erase a | 1 => v.erase b | _ => v.erase c).mode = v.mode := by
  split <;> rfl

theorem control_mode (v : Vt) (ps : List Rune) (f : Rune) : (v.control ps f).mode = .ground := by
  unfold Vt.control
  dsimp only
  by_cases h : f = 0x41
  · rw [if_pos h]; rfl
  rw [if_neg h]; clear h
  by_cases h : f = 0x42
  · rw [if_pos h]; rfl
  rw [if_neg h]; clear h
  by_cases h : f = 0x43
  · rw [if_pos h]; rfl
  rw [if_neg h]; clear h
  by_cases h : f = 0x44
  · rw [if_pos h]; rfl
  rw [if_neg h]; clear h
  by_cases h : f = 0x47
  · rw [if_pos h]; rfl
  rw [if_neg h]; clear h
  by_cases h : f = 0x48
  · rw [if_pos h]; rfl
  rw [if_neg h]; clear h
  by_cases h : f = 0x4A
  · rw [if_pos h]; exact erase_mode _ _ _ _ _
  rw [if_neg h]; clear h
  by_cases h : f = 0x4B
  · rw [if_pos h]; exact erase_mode _ _ _ _ _
  rw [if_neg h]; clear h
  repeat' split
  all_goals rfl

theorem print_mode (v : Vt) (n : Int) (r : Rune) : (v.print n r).mode = v.mode := by
  unfold Vt.print
  split
  · rfl
  · exact newline_mode v

/-- Characters other than ESC. -/
theorem brings_runes {rs : List Rune} (h : ∀ r ∈ rs, r ≠ 0x1B) : ∀ g : Glass P, g.vt.mode = .ground →
    (g.feed ren adv rs).vt.mode = .ground ∧ (g.feed ren adv rs).pen = g.pen := by
  induction rs with
  | nil => exact fun g hm => ⟨hm, rfl⟩
  | cons r rs ih =>
    intro g hm
    rw [gfeed_cons]
    have h1 : (g.receive ren adv r).vt.mode = .ground := by
      show (g.vt.receive adv r).mode = _
      unfold Vt.receive
      rw [hm]
      dsimp only
      rw [if_neg (h r (by simp))]
      by_cases h8 : r = 0x08
      · rw [if_pos h8, ← hm]
      rw [if_neg h8]
      by_cases hD : r = 0x0D
      · rw [if_pos hD, ← hm]
      rw [if_neg hD]
      split
      · rw [newline_mode, hm]
      · split
        · exact hm
        · rw [print_mode, hm]
    have h2 : (g.receive ren adv r).pen = g.pen := by
      unfold Glass.receive Glass.penAfter
      rw [hm]
    obtain ⟨a, b⟩ := ih (fun x hx => h x (by simp [hx])) _ h1
    exact ⟨a, b.trans h2⟩

theorem brings_text {b : Bytes} (h : Over (fun r => r ≠ 0x1B) b) (p : P) : Brings ren adv b p p := by
  intro g hm hp
  obtain ⟨h1, h2⟩ := brings_runes (ren := ren) (adv := adv) (rs := runesOf b) h g hm
  exact ⟨h1, h2.trans hp⟩

theorem brings_escape {r : Rune} (h : r = 0x37 ∨ r = 0x38) (g : Glass P) (hm : g.vt.mode = .ground) :
    (g.feed ren adv [0x1B, r]).vt.mode = .ground ∧ (g.feed ren adv [0x1B, r]).pen = g.pen := by
  have e : g.receive ren adv 0x1B = { g with vt := { g.vt with mode := .escape } } := by
    unfold Glass.receive Glass.penAfter Glass.inksAfter Vt.receive
    rw [hm]
    rfl
  rw [gfeed_cons, gfeed_cons, gfeed_nil, e]
  rcases h with rfl | rfl <;> exact ⟨rfl, rfl⟩

theorem brings_csi {ps : Bytes} {f : UInt8} (hps : ∀ x ∈ ps, x.toNat < 0x40) (h1 : 0x40 ≤ f.toNat) (h2 : f.toNat ≤ 0x7E) (p : P) :
    Brings ren adv ([0x1B, 0x5B] ++ ps ++ [f]) p (if f.toNat = 0x6D then ren (Glass.sgrNumbers (ps.map UInt8.toNat)) p else p) := by
  intro g hm hp
  have hr : runesOf ([0x1B, 0x5B] ++ ps ++ [f]) = [0x1B, 0x5B] ++ ps.map UInt8.toNat ++ [f.toNat] :=
    (reads_eq (reads_csi (fun x hx => by have := hps x hx; omega) (by omega))).symm
  show (g.feed ren adv (runesOf _)).vt.mode = _ ∧ (g.feed ren adv (runesOf _)).pen = _
  rw [hr, gfeed_csi hm (fun r hr => by obtain ⟨x, hx, rfl⟩ := List.mem_map.mp hr; exact hps x hx) h1 h2]
  exact ⟨control_mode _ _ _, by rw [← hp]⟩

theorem csi_valid {ps : Bytes} {f : UInt8} (hps : ∀ x ∈ ps, x.toNat < 0x40) (h2 : f.toNat ≤ 0x7E) : ValidUtf8 ([0x1B, 0x5B] ++ ps ++ [f]) := by
  refine ascii_valid fun x hx => ?_
  simp only [List.mem_append, List.mem_cons, List.not_mem_nil, or_false] at hx
  rcases hx with ((rfl | rfl) | hx) | rfl
  · decide
  · decide
  · have := hps x hx
    show x.toNat < 0x80
    omega
  · show x.toNat < 0x80
    omega

theorem harmless_pen {b : Bytes} (h : Harmless b) : ValidUtf8 b ∧ ∀ p : P, Brings ren adv b p p := by
  induction h with
  | text h =>
    refine ⟨h.1, fun p => brings_text (fun r hr e => h.2 r hr ?_) p⟩
    rw [e]; unfold Control; decide
  | @padded b n h =>
    have v1 : ValidUtf8 (List.replicate n (0x20 : UInt8)) := ascii_valid fun x hx => by rw [(List.mem_replicate.mp hx).2]; decide
    have v2 : ValidUtf8 [(0x1B : UInt8), 0x37] := ascii_valid (by decide)
    have v3 : ValidUtf8 (List.replicate n (0x08 : UInt8)) := ascii_valid fun x hx => by rw [(List.mem_replicate.mp hx).2]; decide
    have v4 : ValidUtf8 [(0x1B : UInt8), 0x38] := ascii_valid (by decide)
    have over : ∀ (x : UInt8), x < 0x80 → x ≠ 0x1B → Over (fun r => r ≠ 0x1B) (List.replicate n x) := fun x h1 h2 =>
      (ascii_over (P := fun r => r ≠ 0x1B) fun y hy => by
        rw [(List.mem_replicate.mp hy).2]
        exact ⟨h1, fun e => h2 (UInt8.toNat_inj.mp e)⟩).2
    have esc : ∀ (r : UInt8), r = 0x37 ∨ r = 0x38 → ∀ p : P, Brings ren adv [0x1B, r] p p := by
      intro r hr p g hm hp
      have e : runesOf [0x1B, r] = [0x1B, r.toNat] :=
        (reads_eq (Reads.ascii (bs := [0x1B, r]) (by rcases hr with rfl | rfl <;> decide))).symm
      show (g.feed ren adv (runesOf _)).vt.mode = _ ∧ (g.feed ren adv (runesOf _)).pen = _
      rw [e]
      obtain ⟨a, c⟩ := brings_escape (ren := ren) (adv := adv) (r := r.toNat) (by rcases hr with rfl | rfl <;> decide) g hm
      exact ⟨a, c.trans hp⟩
    have a1 := ValidUtf8.append v1 v2
    have a2 := ValidUtf8.append a1 v3
    have a3 := ValidUtf8.append a2 h.1
    refine ⟨ValidUtf8.append a3 v4, fun p => ?_⟩
    refine .append a3 (.append a2 (.append a1 (.append v1 (brings_text (over _ (by decide) (by decide)) p) (esc _ (.inl rfl) p))
      (brings_text (over _ (by decide) (by decide)) p)) (brings_text (fun r hr e => h.2 r hr ?_) p)) (esc _ (.inr rfl) p)
    rw [e]; unfold Control; decide
  | append _ _ ih1 ih2 => exact ⟨ValidUtf8.append ih1.1 ih2.1, fun p => .append ih1.1 (ih1.2 p) (ih2.2 p)⟩

/-! ## Pieces of output and the pen -/

theorem decInt_low (n : Int) : ∀ x ∈ decInt n, x.toNat < 0x40 := by
  intro x hx
  unfold decInt at hx
  split at hx
  · rcases List.mem_cons.mp hx with rfl | hx
    · decide
    · have := decNat_digits _ x hx
      omega
  · have := decNat_digits _ x hx
    omega

/-- Output that is neither text nor a colour keeps the pen. -/
theorem wordless_pen {t : Tok} (h : wordless t = true) : ValidUtf8 (t.bytes E.cfg) ∧ ∀ p : P, Brings ren adv (t.bytes E.cfg) p p := by
  have one : ∀ (ps : Bytes) (f : UInt8), (∀ x ∈ ps, x.toNat < 0x40) → 0x40 ≤ f.toNat → f.toNat ≤ 0x7E → f.toNat ≠ 0x6D →
      ValidUtf8 ([0x1B, 0x5B] ++ ps ++ [f]) ∧ ∀ p : P, Brings ren adv ([0x1B, 0x5B] ++ ps ++ [f]) p p := by
    intro ps f h1 h2 h3 h4
    refine ⟨csi_valid h1 h3, fun p => ?_⟩
    have := brings_csi (ren := ren) (adv := adv) h1 h2 h3 p
    rwa [if_neg h4] at this
  cases t with
  | lit b => cases h
  | sgr c => cases h
  | glyph m => cases h
  | cursorOff => exact one [0x3F, 0x32, 0x35] 0x6C (by decide) (by decide) (by decide) (by decide)
  | cursorOn =>
    obtain ⟨v1, b1⟩ := one [0x3F, 0x32, 0x35] 0x68 (by decide) (by decide) (by decide) (by decide)
    obtain ⟨v2, b2⟩ := one [] 0x73 (by decide) (by decide) (by decide) (by decide)
    obtain ⟨v3, b3⟩ := one [] 0x75 (by decide) (by decide) (by decide) (by decide)
    have v12 := ValidUtf8.append v1 v2
    exact ⟨ValidUtf8.append v12 v3, fun p => .append v12 (.append v1 (b1 p) (b2 p)) (b3 p)⟩
  | gotoCol n => exact one _ 0x47 (decInt_low n) (by decide) (by decide) (by decide)
  | eraseEol => exact one [0x30] 0x4B (by decide) (by decide) (by decide) (by decide)
  | flush => exact ⟨ValidUtf8.nil, brings_nil⟩
  | await => exact ⟨ValidUtf8.nil, brings_nil⟩

/-- A colour is given to the pen, or nothing is written. -/
theorem sgr_pen (c : Color) : ValidUtf8 c.write ∧
    ∀ p : P, Brings ren adv c.write p (if c.write = [] then p else ren c.params p) := by
  by_cases hw : c.write = []
  · rw [hw]
    exact ⟨ValidUtf8.nil, fun p => by rw [if_pos rfl]; exact brings_nil p⟩
  · have e : c.write = [0x1B, 0x5B] ++ joinSemi c.params ++ [0x6D] := by
      unfold Color.write at hw ⊢
      split
      · rename_i h0; rw [if_pos h0] at hw; exact absurd rfl hw
      · rfl
    have hps : ∀ x ∈ joinSemi c.params, x.toNat < 0x40 := fun x hx => by have := joinSemi_params c.params x hx; omega
    refine ⟨by rw [e]; exact csi_valid hps (by decide), fun p => ?_⟩
    rw [if_neg hw, e]
    have := brings_csi (ren := ren) (adv := adv) (f := 0x6D) hps (by decide) (by decide) p
    rwa [if_pos (by decide), sgr_numbers _ (params_ne c)] at this

theorem bytesOf_cons (C : Cfg) (t : Tok) (ts : List Tok) : bytesOf C (t :: ts) = t.bytes C ++ bytesOf C ts := rfl

theorem bytesOf_append (C : Cfg) (a b : List Tok) : bytesOf C (a ++ b) = bytesOf C a ++ bytesOf C b := List.flatMap_append

theorem glyphs_pen {C : Cfg} {ms : List Moji} (h : ∀ m ∈ ms, Harmless (m.print C)) :
    ValidUtf8 (bytesOf C (ms.map .glyph)) ∧ ∀ p : P, Brings ren adv (bytesOf C (ms.map .glyph)) p p := by
  induction ms with
  | nil => exact ⟨ValidUtf8.nil, brings_nil⟩
  | cons m ms ih =>
    obtain ⟨v1, b1⟩ := harmless_pen (ren := ren) (adv := adv) (h m (by simp))
    obtain ⟨v2, b2⟩ := ih fun x hx => h x (by simp [hx])
    exact ⟨ValidUtf8.append v1 v2, fun p => .append v1 (b1 p) (b2 p)⟩

/-- The pen is the colour in force, if there is one. -/
theorem walked_pen {C : Cfg} {ts : List Tok} (h : ∀ t ∈ ts, (∃ m, t = .glyph m) ∨ ∃ d, t = .sgr d)
    (hg : ∀ m, .glyph m ∈ ts → Harmless (m.print C)) : ValidUtf8 (bytesOf C ts) ∧
    ∀ (c : Option Color) (p : P), (∀ d, c = some d → ∃ p0, p = ren d.params p0) →
      ∃ q, Brings ren adv (bytesOf C ts) p q ∧ ∀ d, inkAfter c ts = some d → ∃ p0, q = ren d.params p0 := by
  induction ts with
  | nil => exact ⟨ValidUtf8.nil, fun c p hc => ⟨p, brings_nil p, hc⟩⟩
  | cons t ts ih =>
    obtain ⟨v2, b2⟩ := ih (fun x hx => h x (by simp [hx])) (fun m hm => hg m (by simp [hm]))
    rcases h t (by simp) with ⟨m, rfl⟩ | ⟨d, rfl⟩
    · obtain ⟨v1, b1⟩ := harmless_pen (ren := ren) (adv := adv) (hg m (by simp))
      refine ⟨ValidUtf8.append v1 v2, fun c p hc => ?_⟩
      obtain ⟨q, hq, hd⟩ := b2 c p hc
      exact ⟨q, .append v1 (b1 p) hq, hd⟩
    · obtain ⟨v1, b1⟩ := sgr_pen (ren := ren) (adv := adv) d
      refine ⟨ValidUtf8.append v1 v2, fun c p hc => ?_⟩
      obtain ⟨q, hq, hd⟩ := b2 (setInk c d) (if d.write = [] then p else ren d.params p) (by
        unfold setInk
        intro e he
        split at he
        · rename_i hw; rw [if_pos hw]; exact hc e he
        · rename_i hw
          injection he with he
          subst he
          exact ⟨p, by rw [if_neg hw]⟩)
      exact ⟨q, .append v1 (b1 p) hq, hd⟩

theorem lined_pen {ts : List Tok} (h : Lined E ts) (hg : ∀ m, .glyph m ∈ ts → Harmless (m.print E.cfg)) :
    ValidUtf8 (bytesOf E.cfg ts) ∧ ∀ p : P, ∃ p0, Brings ren adv (bytesOf E.cfg ts) p (ren E.coloring.defaultColor.params p0) := by
  obtain ⟨v, b⟩ := walked_pen (ren := ren) (adv := adv) h.1 hg
  refine ⟨v, fun p => ?_⟩
  obtain ⟨q, hq, hd⟩ := b none p (fun d hd => by cases hd)
  obtain ⟨p0, rfl⟩ := hd _ (h.2 none)
  exact ⟨p0, hq⟩

theorem strewn_pen (hr : PenRule ren adv E S) {ts : List Tok} (h : Strewn E ts) : (∀ m, .glyph m ∈ ts → Harmless (m.print E.cfg)) →
    Rounded ren adv (bytesOf E.cfg ts) := by
  induction h with
  | nil => exact fun _ => ⟨ValidUtf8.nil, fun p => ⟨p, brings_nil p⟩⟩
  | append _ _ ih1 ih2 =>
    intro hg
    obtain ⟨v1, b1⟩ := ih1 fun m hm => hg m (List.mem_append_left _ hm)
    obtain ⟨v2, b2⟩ := ih2 fun m hm => hg m (List.mem_append_right _ hm)
    rw [bytesOf_append]
    refine ⟨ValidUtf8.append v1 v2, fun p => ?_⟩
    obtain ⟨q, hq⟩ := b1 p
    obtain ⟨r, hr⟩ := b2 q
    exact ⟨r, .append v1 hq hr⟩
  | wordless t ht =>
    intro _
    obtain ⟨v, b⟩ := wordless_pen (E := E) (ren := ren) (adv := adv) ht
    rw [bytesOf_cons, show bytesOf E.cfg [] = [] from rfl, List.append_nil]
    exact ⟨v, fun p => ⟨p, b p⟩⟩
  | said b hb =>
    intro _
    rw [bytesOf_cons, show bytesOf E.cfg [] = [] from rfl, List.append_nil]
    exact hr.said b hb
  | line ts ht =>
    intro hg
    obtain ⟨v, b⟩ := lined_pen (ren := ren) (adv := adv) ht hg
    exact ⟨v, fun p => ⟨_, (b p).choose_spec⟩⟩
  | predicted ms hc =>
    intro hg
    obtain ⟨⟨v1, b1⟩, v3, b3⟩ := hr.predicted hc
    obtain ⟨v2, b2⟩ := glyphs_pen (ren := ren) (adv := adv) (C := E.cfg) (ms := ms) fun m hm => hg m (by simp [hm])
    have e : bytesOf E.cfg ([.lit E.predictColor.1] ++ ms.map .glyph ++ [.lit E.predictColor.2]) =
        E.predictColor.1 ++ bytesOf E.cfg (ms.map .glyph) ++ E.predictColor.2 := by
      rw [bytesOf_append, bytesOf_append]
      simp [bytesOf, Tok.bytes]
    rw [e]
    have v12 := ValidUtf8.append v1 v2
    refine ⟨ValidUtf8.append v12 v3, fun p => ?_⟩
    obtain ⟨q, h1⟩ := b1 p
    obtain ⟨r, h2⟩ := b3 q
    exact ⟨r, .append v12 (.append v1 h1 (b2 q)) h2⟩
  | search ms =>
    intro hg
    obtain ⟨v, b⟩ := glyphs_pen (ren := ren) (adv := adv) (C := E.cfg) (ms := ms) fun m hm => hg m (by simp [hm])
    exact ⟨v, fun p => ⟨p, b p⟩⟩

theorem bare_pen (hr : PenRule ren adv E S) {b : Bytes} (h : Bare E b) :
    ValidUtf8 b ∧ ∀ p : P, ∃ q, Brings ren adv b p q ∧ (S p → S q) := by
  obtain ⟨v, w⟩ := hr.said b h.uttered
  refine ⟨v, fun p => ?_⟩
  by_cases hS : S p
  · rcases h with rfl | rfl | ⟨f, rc, hf, rfl⟩
    · exact ⟨p, brings_text (ascii_over (by decide)).2 p, id⟩
    · exact ⟨p, brings_text (ascii_over (by decide)).2 p, id⟩
    · obtain ⟨q, h1, h2⟩ := hr.ends f rc hf p hS
      exact ⟨q, h1, fun _ => h2⟩
  · obtain ⟨q, hq⟩ := w p
    exact ⟨q, hq, fun h => absurd h hS⟩

theorem paced_pen (hr : PenRule ren adv E S) {ts : List Tok} (h : Paced E ts) : (∀ m, .glyph m ∈ ts → Harmless (m.print E.cfg)) →
    ValidUtf8 (bytesOf E.cfg ts) ∧ ∀ p : P, ∃ q, Brings ren adv (bytesOf E.cfg ts) p q ∧ (S p → S q) := by
  induction h with
  | nil => exact fun _ => ⟨ValidUtf8.nil, fun p => ⟨p, brings_nil p, id⟩⟩
  | append _ _ ih1 ih2 =>
    intro hg
    obtain ⟨v1, b1⟩ := ih1 fun m hm => hg m (List.mem_append_left _ hm)
    obtain ⟨v2, b2⟩ := ih2 fun m hm => hg m (List.mem_append_right _ hm)
    rw [bytesOf_append]
    refine ⟨ValidUtf8.append v1 v2, fun p => ?_⟩
    obtain ⟨q, hq, h1⟩ := b1 p
    obtain ⟨r, hr, h2⟩ := b2 q
    exact ⟨r, .append v1 hq hr, h2 ∘ h1⟩
  | wordless t ht =>
    intro _
    obtain ⟨v, b⟩ := wordless_pen (E := E) (ren := ren) (adv := adv) ht
    rw [bytesOf_cons, show bytesOf E.cfg [] = [] from rfl, List.append_nil]
    exact ⟨v, fun p => ⟨p, b p, id⟩⟩
  | bare b hb =>
    intro _
    rw [bytesOf_cons, show bytesOf E.cfg [] = [] from rfl, List.append_nil]
    exact bare_pen hr hb
  | drawn ha hc =>
    intro hg
    obtain ⟨v1, b1⟩ := strewn_pen hr ha fun m hm => hg m (List.mem_append_left _ hm)
    obtain ⟨v2, b2⟩ := lined_pen (ren := ren) (adv := adv) hc fun m hm => hg m (List.mem_append_right _ hm)
    rw [bytesOf_append]
    refine ⟨ValidUtf8.append v1 v2, fun p => ?_⟩
    obtain ⟨q, hq⟩ := b1 p
    obtain ⟨p0, h0⟩ := b2 q
    exact ⟨_, .append v1 hq h0, fun _ => hr.default p0⟩
  | search ms =>
    intro hg
    obtain ⟨v, b⟩ := glyphs_pen (ren := ren) (adv := adv) (C := E.cfg) (ms := ms) fun m hm => hg m (by simp [hm])
    exact ⟨v, fun p => ⟨p, b p, id⟩⟩

theorem painted_pen (hr : PenRule ren adv E S) {o ts a b c : List Tok} (h1 : o ++ ts = o ++ (a ++ b ++ c))
    (ht : ∀ t ∈ ts, Given E t ∨ Harmless (t.bytes E.cfg)) (ha : Strewn E a) (hb : Lined E b) (hc : Paced E c)
    (g : Glass P) (hm : g.vt.mode = .ground) :
    (g.run ren adv (bytesOf E.cfg ts)).vt.mode = .ground ∧ S (g.run ren adv (bytesOf E.cfg ts)).pen := by
  have e : ts = a ++ b ++ c := List.append_cancel_left h1
  subst e
  have hg : ∀ m, Tok.glyph m ∈ a ++ b ++ c → Harmless (m.print E.cfg) := fun m hm => (ht _ hm).resolve_left id
  obtain ⟨v1, b1⟩ := strewn_pen hr ha fun m hm => hg m (by simp [hm])
  obtain ⟨v2, b2⟩ := lined_pen (ren := ren) (adv := adv) hb fun m hm => hg m (by simp [hm])
  obtain ⟨v3, b3⟩ := paced_pen hr hc fun m hm => hg m (by simp [hm])
  obtain ⟨q, hq⟩ := b1 g.pen
  obtain ⟨p0, h0⟩ := b2 q
  obtain ⟨r, hr', h3⟩ := b3 (ren E.coloring.defaultColor.params p0)
  rw [bytesOf_append, bytesOf_append]
  obtain ⟨m, e⟩ := Brings.append (ValidUtf8.append v1 v2) (.append v1 hq h0) hr' g hm rfl
  exact ⟨m, e ▸ h3 (hr.default p0)⟩

/-! ## The theorem -/

/-- **Whatever the terminal wrote with before, and whatever colours the prompt and the predictions have**, when a key is awaited and when
`ReadLine` has returned the terminal writes with a pen of `S`: a set that the default colour leads to, and that is not left by what is written at the end
of the line.  No sequence is left unfinished. -/
theorem C88_partial (hb : BuiltinKeys E) (hK : Colourful E.coloring) (hi : Inert E w) (hr : PenRule ren adv E S) (g : Glass P)
    (hm : g.vt.mode = .ground) :
    (∀ s, Reachable E w s → ∃ ts, s.out = w.out ++ ts ∧ (g.run ren adv (bytesOf E.cfg ts)).vt.mode = .ground ∧
      S (g.run ren adv (bytesOf E.cfg ts)).pen) ∧
    ∀ s r, readLine E w = .ok (s, r) → ∃ ts, s.out = w.out ++ ts ∧ (g.run ren adv (bytesOf E.cfg ts)).vt.mode = .ground ∧
      S (g.run ren adv (bytesOf E.cfg ts)).pen := by
  refine ⟨fun s h => ?_, fun s r h => ?_⟩
  · obtain ⟨ts, e, ht⟩ := hi.1 s h
    obtain ⟨a, b, c, e', ha, hb', hc⟩ := session_paced hb hK h
    exact ⟨ts, e, painted_pen hr (e.symm.trans e') ht ha hb' hc g hm⟩
  · obtain ⟨ts, e, ht⟩ := hi.2 s r h
    obtain ⟨a, b, c, e', ha, hb', hc⟩ := result_paced hb hK h
    exact ⟨ts, e, painted_pen hr (e.symm.trans e') ht ha hb' hc g hm⟩

/-! ## Editors of some kinds -/

theorem text_rounded {b : Bytes} (h : ValidUtf8 b ∧ Over (fun r => r ≠ 0x1B) b) : Rounded ren adv b :=
  ⟨h.1, fun p => ⟨p, brings_text h.2 p⟩⟩

theorem Spec.Rounded.append {a b : Bytes} (h1 : Rounded ren adv a) (h2 : Rounded ren adv b) : Rounded ren adv (a ++ b) := by
  refine ⟨ValidUtf8.append h1.1 h2.1, fun p => ?_⟩
  obtain ⟨q, hq⟩ := h1.2 p
  obtain ⟨r, hr⟩ := h2.2 q
  exact ⟨r, .append h1.1 hq hr⟩

theorem csi_rounded {ps : Bytes} {f : UInt8} (hps : ∀ x ∈ ps, x.toNat < 0x40) (h1 : 0x40 ≤ f.toNat) (h2 : f.toNat ≤ 0x7E) :
    Rounded ren adv ([0x1B, 0x5B] ++ ps ++ [f]) :=
  ⟨csi_valid hps h2, fun p => ⟨_, brings_csi hps h1 h2 p⟩⟩

/-- What a session says is whole, if what is given to it is. -/
theorem said_rounded (hp : ∀ b, PromptText E b → Rounded ren adv b) (he : ∀ e, E.promptErr = some e → Rounded ren adv e)
    (hl : ∀ f rc, E.lineFeed = some f → Rounded ren adv (f rc))
    (hx : ∀ k K f l, lookupCommand E k = .completion K → K.box = some f → Rounded ren adv (f l)) (b : Bytes) (h : Uttered E b) :
    Rounded ren adv b := by
  rcases h with h | ⟨e, h, rfl⟩ | rfl | rfl | ⟨f, rc, h, rfl⟩ | rfl | ⟨k, K, f, l, h1, h2, rfl⟩
  · exact hp b h
  · exact (he e h).append (text_rounded (ascii_over (by decide)))
  · exact text_rounded (ascii_over (by decide))
  · exact text_rounded (ascii_over (by decide))
  · exact hl f rc h
  · exact (csi_rounded (ps := [0x31, 0x3B, 0x31]) (f := 0x48) (by decide) (by decide) (by decide)).append
      (csi_rounded (ps := [0x32]) (f := 0x4A) (by decide) (by decide) (by decide))
  · exact hx k K f l h1 h2

theorem unescaped_rounded (h : Unescaped E) : ∀ b, Uttered E b → Rounded ren adv b :=
  said_rounded (fun b hb => text_rounded (h.1 b hb)) (fun e he => text_rounded (h.2.1 e he)) (fun f rc hf => text_rounded (h.2.2.1 f rc hf))
    fun k K f l h1 h2 => text_rounded (h.2.2.2 k K f l h1 h2)

/-- **The terminal is left writing in the default colour of the colouring**, whatever it wrote with before: if this colour makes every pen `c`, and what is
written at the end of the line keeps the pen, the pen is `c`. -/
theorem C88_left_partial {c : P} (hb : BuiltinKeys E) (hK : Colourful E.coloring) (hi : Inert E w)
    (hs : ∀ b, Uttered E b → Rounded ren adv b) (hp : E.predictColor.1 ≠ [] → Rounded ren adv E.predictColor.1 ∧ Rounded ren adv E.predictColor.2)
    (hl : ∀ f rc, E.lineFeed = some f → Brings ren adv (f rc) c c)
    (hc : ∀ p, ren E.coloring.defaultColor.params p = c) (g : Glass P) (hm : g.vt.mode = .ground) :
    (∀ s, Reachable E w s → ∃ ts, s.out = w.out ++ ts ∧ (g.run ren adv (bytesOf E.cfg ts)).vt.mode = .ground ∧
      (g.run ren adv (bytesOf E.cfg ts)).pen = c) ∧
    ∀ s r, readLine E w = .ok (s, r) → ∃ ts, s.out = w.out ++ ts ∧ (g.run ren adv (bytesOf E.cfg ts)).vt.mode = .ground ∧
      (g.run ren adv (bytesOf E.cfg ts)).pen = c :=
  C88_partial (S := fun q => q = c) hb hK hi ⟨hc, hs, hp, fun f rc hf p e => ⟨c, e ▸ hl f rc hf, rfl⟩⟩ g hm

/-- `PredictColorBlueItalic`, main.go:65. -/
def blueItalic : Bytes × Bytes :=
  ([0x1B, 0x5B, 0x33, 0x3B, 0x32, 0x32, 0x3B, 0x33, 0x34, 0x6D], [0x1B, 0x5B, 0x32, 0x33, 0x3B, 0x33, 0x39, 0x6D])

theorem sgr_rounded {b : Bytes} (h : Sgr b) : Rounded ren adv b := by
  rcases h with rfl | ⟨ps, rfl, h⟩
  · exact ⟨ValidUtf8.nil, fun p => ⟨p, brings_nil p⟩⟩
  · exact csi_rounded (fun x hx => by have := h x hx; omega) (by decide) (by decide)

theorem blueItalic_sgr : Sgr blueItalic.1 ∧ Sgr blueItalic.2 :=
  ⟨.inr ⟨[0x33, 0x3B, 0x32, 0x32, 0x3B, 0x33, 0x34], rfl, by decide⟩, .inr ⟨[0x32, 0x33, 0x3B, 0x33, 0x39], rfl, by decide⟩⟩

theorem reset_params : colorReset.params = [0] := by decide +kernel

/-- **An editor that colours as `VimBatch` does puts the pen back**: the terminal writes plainly when a key is awaited and after `ReadLine`, whatever it
wrote with before and whatever colours the prompt and the predictions have. -/
theorem C88_vimBatch_partial (hb : BuiltinKeys E) (hK : E.coloring = vimBatch) (hi : Inert E w)
    (hs : ∀ b, Uttered E b → Rounded Pen.sgr adv b) (hp : Sgr E.predictColor.1 ∧ Sgr E.predictColor.2)
    (hl : ∀ f rc, E.lineFeed = some f → Brings Pen.sgr adv (f rc) {} {}) (g : Glass Pen) (hm : g.vt.mode = .ground) :
    (∀ s, Reachable E w s → ∃ ts, s.out = w.out ++ ts ∧ (g.run Pen.sgr adv (bytesOf E.cfg ts)).vt.mode = .ground ∧
      (g.run Pen.sgr adv (bytesOf E.cfg ts)).pen = {}) ∧
    ∀ s r, readLine E w = .ok (s, r) → ∃ ts, s.out = w.out ++ ts ∧ (g.run Pen.sgr adv (bytesOf E.cfg ts)).vt.mode = .ground ∧
      (g.run Pen.sgr adv (bytesOf E.cfg ts)).pen = {} := by
  refine C88_left_partial hb (hK ▸ C46_vimBatch) hi hs (fun _ => ⟨sgr_rounded hp.1, sgr_rounded hp.2⟩) hl (fun p => ?_) g hm
  rw [hK]
  show Pen.sgr colorReset.params p = {}
  rw [reset_params]
  rfl

/-- **An editor without a colouring leaves the terminal bold**, even if it was not before, and even where the predictions have switched it off. -/
theorem C88_monoChrome_partial (hb : BuiltinKeys E) (hK : E.coloring = monoChrome) (hi : Inert E w)
    (hs : ∀ b, Uttered E b → Rounded Pen.sgr adv b) (hp : Sgr E.predictColor.1 ∧ Sgr E.predictColor.2)
    (hl : ∀ f rc, E.lineFeed = some f → Brings Pen.sgr adv (f rc) ⟨39, 49, true⟩ ⟨39, 49, true⟩) (g : Glass Pen) (hm : g.vt.mode = .ground) :
    (∀ s, Reachable E w s → ∃ ts, s.out = w.out ++ ts ∧ (g.run Pen.sgr adv (bytesOf E.cfg ts)).vt.mode = .ground ∧
      (g.run Pen.sgr adv (bytesOf E.cfg ts)).pen = ⟨39, 49, true⟩) ∧
    ∀ s r, readLine E w = .ok (s, r) → ∃ ts, s.out = w.out ++ ts ∧ (g.run Pen.sgr adv (bytesOf E.cfg ts)).vt.mode = .ground ∧
      (g.run Pen.sgr adv (bytesOf E.cfg ts)).pen = ⟨39, 49, true⟩ :=
  C88_left_partial hb (hK ▸ C46_monoChrome) hi hs (fun _ => ⟨sgr_rounded hp.1, sgr_rounded hp.2⟩) hl (fun p => by
    rw [hK]; exact pen_fg (i := 9) (by decide) (by decide) p) g hm

/-! ## The example shell -/

theorem shell_says (l : List Bytes) : ∀ b, Uttered (tinyBase E l) b → Rounded ren adv b := by
  have one : Rounded ren adv [0x1B, 0x5B, 0x31, 0x3B, 0x33, 0x36, 0x6D, 0x24, 0x20, 0x1B, 0x5B, 0x30, 0x6D] :=
    ((csi_rounded (ps := [0x31, 0x3B, 0x33, 0x36]) (f := 0x6D) (by decide) (by decide) (by decide)).append
      (text_rounded (b := [0x24, 0x20]) (ascii_over (by decide)))).append (csi_rounded (ps := [0x30]) (f := 0x6D) (by decide) (by decide) (by decide))
  refine said_rounded (fun b hb => ?_) (fun e he => by cases he) (fun f rc hf => by cases hf)
    fun k K f l' e1 _ => absurd e1 (tinyBase_completion E l k K)
  obtain ⟨n, rfl | rfl⟩ := hb
  · exact one
  · exact (text_rounded (b := [0x0D]) (ascii_over (by decide))).append one

/-- **The example shell (examples/example2.go) puts the pen back**: in a terminal of which nothing is known, if Tab is not pressed, whatever is typed,
remembered and in the clipboard, and whatever the terminal wrote with before, it writes plainly when the line has been read, and no sequence is
left unfinished. -/
theorem C88_shell_partial {σ : Type} {Y : System σ} {x : σ} {l : List Bytes} {rw : Bool → Rune → Int} {vs : Rune → Bool} {e : Environ}
    (hE : E.cfg = startCfg rw vs e) (he : Unnamed e) (hw : ∀ b r, 0x7F ≤ r → r ≤ 0x9F → rw b r = 0) (ht : .key [0x09] ∉ w.input)
    (g : Glass Pen) (hm : g.vt.mode = .ground) {s : St} {r : RLRes} (h : readLine (tinyEnv Y E x l) w = .ok (s, r)) :
    ∃ ts, s.out = w.out ++ ts ∧ (g.run Pen.sgr adv (bytesOf E.cfg ts)).vt.mode = .ground ∧ (g.run Pen.sgr adv (bytesOf E.cfg ts)).pen = {} := by
  rw [tiny_reads ht] at h
  exact (C88_vimBatch_partial (E := tinyBase E l) (tinyBase_builtin E l) rfl (C61_unnamed (E := tinyBase E l) hE he hw (tinyBase_builtin E l))
    (shell_says l) blueItalic_sgr (fun f rc hf => by cases hf) g hm).2 s r h

/-! ## Cases -/

section
open Example

theorem env_unescaped (C : Cfg) (d : Bytes) (h : List Bytes) (pc : Bytes × Bytes) (K : Coloring) :
    Unescaped { env C with default := d, history := h, predictColor := pc, coloring := K } := by
  refine ⟨fun b hb => ?_, (fun e he => by cases he), (fun f rc hf => by cases hf), fun k K' f l h1 _ => absurd h1 (env_completion rfl rfl)⟩
  rcases hb with rfl | rfl <;> exact ascii_over (by decide)

/-- The default editor in Visual Studio Code's terminal, with predictions, whatever is typed, remembered and in the clipboard: the hypotheses of
`C88_monoChrome_partial` and of `C88_partial` are met by every session. -/
example (d : Bytes) (h : List Bytes) (w : World) :=
  C88_monoChrome_partial (adv := fun _ => 1) (E := { env (started inCode) with default := d, history := h, predictColor := blueItalic, coloring := monoChrome })
    (w := w) (defaultKeys_builtin (started inCode)) rfl
    (C61_unnamed (E := { env (started inCode) with default := d, history := h, predictColor := blueItalic, coloring := monoChrome }) (w := w)
      (rw := orgRuneWidth tables) (vs := fun r => 0xFE00 ≤ r ∧ r ≤ 0xFE0F) (e := inCode) rfl inCode_unnamed
      (fun _ _ h1 h2 => c1_width h1 h2) (defaultKeys_builtin (started inCode)))
    (unescaped_rounded (env_unescaped _ d h _ _)) blueItalic_sgr (fun f rc hf => by cases hf) glassRow rfl

/-- The same editor in the colours of test/color-sgr, for `C88_left_partial`: the terminal is left white on black and bold. -/
example (d : Bytes) (h : List Bytes) (w : World) :=
  C88_left_partial (ren := Pen.sgr) (adv := fun _ => 1) (c := ⟨37, 40, true⟩)
    (E := { env (started inCode) with default := d, history := h, predictColor := blueItalic, coloring := colorSgr })
    (w := w) (defaultKeys_builtin (started inCode)) (C72_quoting (by decide +kernel) (by decide +kernel)).1
    (C61_unnamed (E := { env (started inCode) with default := d, history := h, predictColor := blueItalic, coloring := colorSgr }) (w := w)
      (rw := orgRuneWidth tables) (vs := fun r => 0xFE00 ≤ r ∧ r ≤ 0xFE0F) (e := inCode) rfl inCode_unnamed
      (fun _ _ h1 h2 => c1_width h1 h2) (defaultKeys_builtin (started inCode)))
    (unescaped_rounded (env_unescaped _ d h _ _)) (fun _ => ⟨sgr_rounded blueItalic_sgr.1, sgr_rounded blueItalic_sgr.2⟩) (fun f rc hf => by cases hf) (fun p => (pen_sgr4 p).2) glassRow rfl

/-- The example shell, whatever is typed but Tab. -/
example {σ : Type} {Y : System σ} {x : σ} {l : List Bytes} {w : World} (ht : .key [0x09] ∉ w.input) {s : St} {r : RLRes}
    (h : readLine (tinyEnv Y (env (started inCode)) x l) w = .ok (s, r)) :=
  C88_shell_partial (adv := fun _ => 1) (E := env (started inCode)) (rw := orgRuneWidth tables) (vs := fun r => 0xFE00 ≤ r ∧ r ≤ 0xFE0F) (e := inCode)
    rfl inCode_unnamed (fun _ _ h1 h2 => c1_width h1 h2) ht glassRow rfl h

/-- The pens when a key is awaited, of the editor that remembers `abc`, predicts in blue, and has a prompt that colours green without going back. -/
def pensOf (K : Coloring) (ks : List String) : List (Option (Pen × Nat)) :=
  (List.range ks.length).map fun n =>
    match after { env (started inCode) with history := [b "abc"], predictColor := blueItalic, coloring := K, prompt := some fun _ => b "\x1B[32m> " }
      { input := keys ks } n with
    | .ok s => some ((glassRow.run Pen.sgr (fun _ => 1) (bytesOf (started inCode) s.out)).pen, s.out.count (.lit blueItalic.1))
    | .error _ => none

example : pensOf monoChrome ["a", "x", "\x0C", "y", "\r"] =
    [some (⟨39, 49, true⟩, 0), some (⟨39, 49, true⟩, 1), some (⟨39, 49, true⟩, 1), some (⟨39, 49, true⟩, 1), some (⟨39, 49, true⟩, 1)] ∧
    pensOf vimBatch ["a", "x", "\x0C"] = [some ({}, 0), some ({}, 1), some ({}, 1)] := by decide +kernel

/-- A letter, U+200D, and the sequence for red: ESC, `[`, `3`, `1`, `m`. -/
def reddens : Bytes := utf8 ['a', '‍', '\x1b', '[', '3', '1', 'm']

/-- The pen after a line that starts with that text, when Ctrl-E and Enter are pressed. -/
def penLeft (e : Environ) : Option Pen :=
  match readLine { env (started e) with default := reddens } { input := keys ["\x05", "\r"] } with
  | .ok (s, _) => some (glassRow.run Pen.sgr (fun _ => 1) (bytesOf (started e) s.out)).pen
  | .error _ => none

/-- **C88 does not hold for every text where joining is enabled** (`C61_refuted`): in Windows Terminal, an editor without a colouring leaves the
terminal writing in red if the line says so; in an unnamed terminal the pen is the usual one. -/
theorem C88_refuted :
    (∃ s r, readLine { env (started inWindows) with default := reddens } { input := keys ["\x05", "\r"] } = .ok (s, r) ∧
      (glassRow.run Pen.sgr (fun _ => 1) (bytesOf (started inWindows) s.out)).pen = ⟨31, 49, true⟩) ∧
    penLeft inCode = some ⟨39, 49, true⟩ := by
  have h : penLeft inWindows = some ⟨31, 49, true⟩ := by decide +kernel
  refine ⟨?_, by decide +kernel⟩
  unfold penLeft at h
  split at h
  · rename_i s r hr
    exact ⟨s, r, hr, Option.some.inj h⟩
  · cases h

/-- What a wrong order would do: behind a prediction, the usual pen is not bold. -/
example : Pen.sgr [23, 39] (Pen.sgr [3, 22, 34] ⟨39, 49, true⟩) = ⟨39, 49, false⟩ := by decide

end

end Readline
