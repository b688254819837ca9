import Verif.Spec.Termcheck
import Verif.Props.C02
import Verif.Props.C05
import Verif.Props.C10
import Verif.Props.C12
import Verif.Props.C18
import Verif.Props.C15
import Verif.Props.C43
import Verif.Props.C58
/-!
# C60: on a terminal that the environment does not name, every code point is a character of its own

`C60_flags`, `C60_variables`: which environment variables matter, and how.
`C60_units`: on an unnamed terminal a text is cut into its code points.  `C60_line`: the line of a
session consists of code points at every time, and none waits to be joined.  Then the exceptions of
C10, C12, C18 and C43 do not exist: `C60_kill_yank`, `C60_backspace`, `C60_search_undo`,
`C60_typed`.
`C60_columns`: with the width function of orgxwidth.go every character takes a column at least, on
every terminal, and eight at most on an unnamed one.  `C60_display`: with that function, printable
text on an unnamed terminal is shown as C58 says.
-/
namespace Readline
open Spec

variable {rw : Bool → Rune → Int} {vs : Rune → Bool} {e : Environ}

/-! ## The variables -/

/-- The flags, said in terms of the terminals that are named. -/
theorem C60_flags (rw : Bool → Rune → Int) (vs : Rune → Bool) (e : Environ) :
    ((startCfg rw vs e).surrogateOk = true ↔ ∃ t, Names e t) ∧
    ((startCfg rw vs e).zwjOk = true ↔ ∃ t, Names e t) ∧
    ((startCfg rw vs e).varOk = true ↔ ∃ t, Names e t) ∧
    ((startCfg rw vs e).modOk = true ↔ ∃ t, Names e t ∧ t ≠ .contour) ∧
    ((startCfg rw vs e).ambWide = true ↔ ¬ Names e .windowsTerminal) ∧
    (startCfg rw vs e).width = rw (startCfg rw vs e).ambWide := by
  have h1 : isWindowsTerminal e = true ↔ Names e .windowsTerminal := by
    simp [isWindowsTerminal, isVsCodeTerminal, Names, and_assoc]
  have h2 : isWezTerm e = true ↔ Names e .wezTerm := by simp [isWezTerm, Names]
  have h3 : isContour e = true ↔ Names e .contour := by simp [isContour, Names]
  have hall : (isWindowsTerminal e || isWezTerm e || isContour e) = true ↔ ∃ t, Names e t := by
    rw [Bool.or_eq_true, Bool.or_eq_true, h1, h2, h3]
    constructor
    · rintro ((h | h) | h) <;> exact ⟨_, h⟩
    · rintro ⟨t, h⟩
      cases t with
      | windowsTerminal => exact Or.inl (Or.inl h)
      | wezTerm => exact Or.inl (Or.inr h)
      | contour => exact Or.inr h
  refine ⟨hall, hall, hall, ?_, ?_, rfl⟩
  · show (isWindowsTerminal e || isWezTerm e) = true ↔ _
    rw [Bool.or_eq_true, h1, h2]
    constructor
    · rintro (h | h)
      · exact ⟨_, h, by simp⟩
      · exact ⟨_, h, by simp⟩
    · rintro ⟨t, h, hne⟩
      cases t with
      | windowsTerminal => exact Or.inl h
      | wezTerm => exact Or.inr h
      | contour => exact absurd rfl hne
  · show (!isWindowsTerminal e) = true ↔ _
    rw [← h1]; simp

/-- Only the five variables matter. -/
theorem C60_variables {e e' : Environ} (h : ∀ x ∈ variables, e x = e' x) : startCfg rw vs e = startCfg rw vs e' := by
  have h1 := h "VSCODE_PID" (by simp [variables])
  have h2 := h "WT_SESSION" (by simp [variables])
  have h3 := h "WT_PROFILE_ID" (by simp [variables])
  have h4 := h "TERM_PROGRAM" (by simp [variables])
  have h5 := h "TERMINAL_NAME" (by simp [variables])
  simp [startCfg, surrogatePairOk, zeroWidthJoinSequenceOk, variationSequenceOk, modifierSequenceOk, ambiguousIsWide,
    isWindowsTerminal, isVsCodeTerminal, isWezTerm, isContour, h1, h2, h3, h4, h5]

/-- What an unnamed terminal is taken to be unable to do. -/
theorem unnamed_off (h : Unnamed e) : (startCfg rw vs e).surrogateOk = false ∧ (startCfg rw vs e).zwjOk = false ∧
    (startCfg rw vs e).varOk = false ∧ (startCfg rw vs e).modOk = false ∧ (startCfg rw vs e).ambWide = true := by
  obtain ⟨h1, h2, h3, h4, h5, -⟩ := C60_flags rw vs e
  have no : ¬ ∃ t, Names e t := fun ⟨t, ht⟩ => h t ht
  refine ⟨?_, ?_, ?_, ?_, h5.mpr (h _)⟩
  · rw [← Bool.not_eq_true, h1]; exact no
  · rw [← Bool.not_eq_true, h2]; exact no
  · rw [← Bool.not_eq_true, h3]; exact no
  · rw [← Bool.not_eq_true, h4]; exact fun ⟨t, ht, _⟩ => h t ht

theorem unnamed_joins (h : Unnamed e) (r : Nat) : ¬ Joins (startCfg rw vs e) r := by
  obtain ⟨-, h2, h3, h4, -⟩ := unnamed_off (rw := rw) (vs := vs) h
  rintro (⟨h, -⟩ | ⟨h, -⟩ | ⟨h, -⟩)
  · rw [h2] at h; cases h
  · rw [h3] at h; cases h
  · rw [h4] at h; cases h

/-! ## One code point, one character -/

/-- Without joining, a unit is a code point. -/
theorem Built.lone {C : Cfg} {m : Moji} (hj : ∀ r, ¬ Joins C r) (h : Built C m) : ∃ c : Char, m.write = utf8 [c] := by
  cases h with
  | @base r hr =>
    obtain ⟨c, rfl⟩ := exists_char_of_isScalar hr
    exact ⟨c, by rw [Moji.norm_write, rune2moji_write, utf8_single]⟩
  | zwj hz _ _ => exact absurd (Or.inl ⟨hz, Or.inl rfl⟩) (hj 0x200C)
  | @vari m r _ _ _ hv =>
    unfold isVariationSelectorLike at hv
    rw [Bool.and_eq_true] at hv
    exact absurd (Or.inr (Or.inl hv)) (hj r)
  | @modi m r _ _ _ _ hm =>
    unfold isEmojiModifier at hm
    rw [Bool.and_eq_true, Bool.and_eq_true, decide_eq_true_eq, decide_eq_true_eq] at hm
    exact absurd (Or.inr (Or.inr hm)) (hj r)

theorem lone_list {C : Cfg} {l : List Moji} (hj : ∀ r, ¬ Joins C r) (h : ∀ m ∈ l, Built C m) :
    ∃ cs : List Char, l.map Moji.write = cs.map (fun c => utf8 [c]) := by
  induction l with
  | nil => exact ⟨[], rfl⟩
  | cons m l ih =>
    obtain ⟨c, hc⟩ := (h m (by simp)).lone hj
    obtain ⟨cs, hcs⟩ := ih fun m hm => h m (by simp [hm])
    exact ⟨c :: cs, by rw [List.map_cons, List.map_cons, hc, hcs]⟩

theorem lone_inj {as cs : List Char} (h : utf8 as = utf8 cs) : as = cs := by
  have := congrArg runesOf h
  rw [runesOf_utf8, runesOf_utf8] at this
  exact List.map_inj_right (fun a b h => Char.toNat_inj.mp h) |>.mp this

/-- **C60**: a text is cut into its code points, whatever they are. -/
theorem C60_units (h : Unnamed e) (cs : List Char) :
    (stringToMoji (startCfg rw vs e) (utf8 cs)).map Moji.write = cs.map (fun c => utf8 [c]) := by
  have hj := fun r => unnamed_joins (rw := rw) (vs := vs) h r
  obtain ⟨as, ha⟩ := lone_list (l := segs (startCfg rw vs e) (utf8 cs)) hj (segs_built _ _)
  have e1 : (stringToMoji (startCfg rw vs e) (utf8 cs)).map Moji.write = as.map (fun c => utf8 [c]) := by
    rw [← ha]; simp [segs, Function.comp_def]
  have e2 := C05_partial (startCfg rw vs e) cs (Or.inl (unnamed_off h).2.1)
  have e3 : (stringToMoji (startCfg rw vs e) (utf8 cs)).flatMap Moji.write = utf8 as := by
    rw [← flatten_utf8 as, ← e1]; rfl
  rw [e1, lone_inj (e3.symm.trans e2)]

/-- Nothing waits to be joined. -/
theorem pending_off {E : Env} {w : World} {s : St} (hb : BuiltinKeys E) (hz : E.cfg.zwjOk = false)
    (h : Reachable E w s) : s.pending = [] := by
  induction h with
  | start h => rw [(Obs.of_ed (startSt_ed h).1).pending]; simp [Ed.start]
  | @step s s' _ h ih =>
    rcases step_cases h with ⟨n, rest, hi⟩ | ⟨k, rest, hi⟩
    · rw [(resize_obs hi h).pending]; exact ih
    · rw [(step_obs hb hi h).1.pending]
      rcases Ed.call_pending (L := E.logic) (e := { s.ed with input := rest }) (lookupCommand E k) with h | h | ⟨q, -, h, -⟩
      · rw [h]; exact ih
      · exact h
      · unfold areZeroWidthJoin at h
        rw [show E.logic.cfg.zwjOk = false from hz] at h
        cases h

variable {E : Env} {w : World} {s : St}

/-- **C60**: at every time of a session the line is a list of code points, each a character of its
own, and nothing waits. -/
theorem C60_line (hb : BuiltinKeys E) (hE : E.cfg = startCfg rw vs e) (hu : Unnamed e) (h : Reachable E w s) :
    s.pending = [] ∧ ∃ cs : List Char, s.units = cs.map (fun c => utf8 [c]) ∧ s.text = utf8 cs := by
  refine ⟨pending_off hb (by rw [hE]; exact (unnamed_off hu).2.1) h, ?_⟩
  obtain ⟨cs, hcs⟩ := lone_list (l := s.line) (fun r => by rw [hE]; exact unnamed_joins hu r) (reachable_built hb h)
  have e1 : s.units = cs.map (fun c => utf8 [c]) := by rw [St.units_eq, hcs]
  exact ⟨cs, e1, by rw [St.text_units, e1, flatten_utf8]⟩

/-- The cursor of an unnamed terminal's session counts code points. -/
theorem C60_cursor (hb : BuiltinKeys E) (hE : E.cfg = startCfg rw vs e) (hu : Unnamed e) (hc : 0 ≤ w.cursor)
    (h : Reachable E w s) :
    ∃ left right : List Char, s.text = utf8 (left ++ right) ∧ s.cursor = left.length := by
  obtain ⟨-, cs, h1, h2⟩ := C60_line hb hE hu h
  have hin := C02_partial hb hc h
  have hlen : s.buf.length = cs.length := by
    have := congrArg List.length h1
    simpa [St.units] using this
  refine ⟨cs.take s.cursor.toNat, cs.drop s.cursor.toNat, by rw [List.take_append_drop, h2], ?_⟩
  rw [List.length_take]
  omega

theorem unnamed_tidy (hE : E.cfg = startCfg rw vs e) (hu : Unnamed e) (s : St) : Tidy E.cfg s := by
  intro u _
  rw [hE]
  exact unnamed_joins hu _

/-! ## What holds without exception on an unnamed terminal -/

/-- A kill and a yank give the line back, whatever characters it has (C10). -/
theorem C60_kill_yank {s1 s2 : St} {c : Cmd} {rc1 rc2 : Result} {l r : List Bytes} (hb : BuiltinKeys E)
    (hE : E.cfg = startCfg rw vs e) (hu : Unnamed e) (hre : Reachable E w s) (hclip : ∀ o t, E.clipSet o t = some t)
    (hk : c = .killLine ∨ c = .unixLineDiscard ∨ c = .unixWordRubout) (hat : At s l r)
    (h1 : Performs E c s s1 rc1) (hnl : ∀ t, s1.clip = some t → NoNewlineEnd t)
    (h2 : Performs E .yank s1 s2 rc2) : s2.units = s.units := by
  obtain ⟨a, m, z, -, -, -, h, -⟩ := C10_partial hb hre (unnamed_tidy hE hu s) hclip hk hat h1 hnl h2
  exact h

/-- Backspace takes back any typed code point (C12). -/
theorem C60_backspace {s1 s2 : St} {rc1 rc2 : Result} {l r : List Bytes} {c : Char} (hb : BuiltinKeys E)
    (hE : E.cfg = startCfg rw vs e) (hu : Unnamed e) (hre : Reachable E w s)
    (h1 : Performs E (.selfInsert (utf8 [c])) s s1 rc1)
    (h2 : Performs E .backwardDeleteChar s1 s2 rc2) (hat : At s l r) : At s2 l r :=
  C12_partial h1 h2 hat (Or.inr (by rw [hE]; exact unnamed_joins hu _)) (C60_line hb hE hu hre).1

/-- One Undo takes back a search (C18). -/
theorem C60_search_undo {s' t : St} {k cr : Bytes} {evs rest : List Ev} (hb : BuiltinKeys E)
    (hE : E.cfg = startCfg rw vs e) (hu : Unnamed e) (hre : Reachable E w s)
    (hin : s.input = .key k :: (evs ++ .key cr :: rest)) (hk : lookupCommand E k = .isearchBackward)
    (hn : NoErr evs) (hi : Spec.Inside (keysIn evs)) (hcr : takes cr) (h : step E s = .ok (s', none))
    (hun : Undos E s' 1 t) : t.units = s.units ∧ t.undoes = s.undoes :=
  C18_undo_partial hb hre (unnamed_tidy hE hu s) hin hk hn hi hcr h hun

theorem flows_off {C : Cfg} (hz : C.zwjOk = false) (cs : List Char) : Flows C .fresh cs ∧ Flows C .started cs := by
  induction cs with
  | nil => exact ⟨trivial, trivial⟩
  | cons c cs ih =>
    refine ⟨ih.2, Or.inr ⟨?_, ih.2⟩⟩
    rintro ⟨h, -⟩
    rw [hz] at h
    cases h

/-- Typing any text code point by code point puts exactly its code points before the cursor (C43). -/
theorem C60_typed {s' : St} {l r : List Bytes} {cs : List Char} (hb : BuiltinKeys E)
    (hE : E.cfg = startCfg rw vs e) (hu : Unnamed e) (hre : Reachable E w s) (ht : Typed E cs s s') (hat : At s l r) :
    At s' (l ++ cs.map (fun c => utf8 [c])) r := by
  have hz : E.cfg.zwjOk = false := by rw [hE]; exact (unnamed_off hu).2.1
  have h := (C43_units_partial ht hat (C60_line hb hE hu hre).1 (flows_off hz cs).1
    (Or.inr fun c _ => by rw [hE]; exact unnamed_joins hu _)).1
  rw [hE] at h
  unfold unitsOf at h
  rw [C60_units hu] at h
  exact h

/-! ## The width function of orgxwidth.go -/

variable {T : WidthTables}

/-- None, one or two columns; none exactly for what is not printable. -/
theorem orgRuneWidth_range (b : Bool) (r : Rune) : 0 ≤ orgRuneWidth T b r ∧ orgRuneWidth T b r ≤ 2 ∧
    (T.isPrint r = true → 1 ≤ orgRuneWidth T b r) ∧ (T.isPrint r = false → orgRuneWidth T b r = 0) := by
  unfold orgRuneWidth
  dsimp only
  cases T.isPrint r with
  | false => simp
  | true =>
    rw [if_neg (by simp)]
    cases T.kind r <;> cases b <;> simp

theorem lenEscapedLoop_le (k : Nat) : ∀ (c : Nat) (w : Int), c < 16 ^ (k + 1) → lenEscapedLoop c w ≤ w + k := by
  induction k with
  | zero =>
    intro c w h
    rw [lenEscapedLoop, if_neg (by omega)]
    simp
  | succ k ih =>
    intro c w h
    rw [lenEscapedLoop]
    split
    · have := ih (c / 16) (w + 1) (by rw [Nat.pow_succ] at h; omega)
      omega
    · omega

theorem scalar_lt {r : Rune} (h : isScalar r = true) : r < 16 ^ 6 := by
  unfold isScalar at h
  simp only [Bool.or_eq_true, Bool.and_eq_true, decide_eq_true_eq] at h
  omega

/-- The columns of a code point on its own. -/
theorem rune2moji_range {C : Cfg} {r : Rune} (hr : isScalar r = true) (h : ∀ q, 0 ≤ C.width q ∧ C.width q ≤ 2) :
    ∀ m : Moji, m.norm = (rune2moji C r 0).norm → 1 ≤ m.width C ∧ m.width C ≤ 8 := by
  have tab : ∀ p : Int, 1 ≤ (Moji.tab p).width C ∧ (Moji.tab p).width C ≤ 8 := by
    intro p
    show 1 ≤ 4 - Int.tmod p 4 ∧ 4 - Int.tmod p 4 ≤ 8
    have h1 := Int.tmod_lt_of_pos p (show (0 : Int) < 4 by decide)
    have h2 := Int.lt_tmod_of_pos p (show (0 : Int) < 4 by decide)
    omega
  have two : ∀ m : Moji, m.width C = 2 → 1 ≤ m.width C ∧ m.width C ≤ 8 := by intro m h; omega
  have esc : 1 ≤ (Moji.esc r).width C ∧ (Moji.esc r).width C ≤ 8 := by
    have h1 := lenEscapedLoop_ge r 3
    have h2 := lenEscapedLoop_le 5 r 3 (scalar_lt hr)
    show 1 ≤ lenEscapedLoop r 3 ∧ lenEscapedLoop r 3 ≤ 8
    omega
  intro m hm
  have nt : ∀ m' : Moji, (∀ p, m' ≠ .tab p) → m'.norm = m' → m.norm = m' → m = m' := by
    intro m' h0 h1 h2
    cases m with
    | tab p => exact absurd h2.symm (h0 0)
    | zwj a b | modi a b | vari a b =>
      simp only [Moji.norm] at h2
      subst h2
      simp only [Moji.norm] at hm
      unfold rune2moji at hm
      repeat' split at hm
      all_goals cases hm
    | _ => exact h2
  unfold rune2moji at hm
  split at hm
  · cases m with
    | tab p => exact tab p
    | _ => cases hm
  · split at hm
    · rw [nt (.ctrl r) (by simp) rfl hm]; exact two _ rfl
    · split at hm
      · rw [nt (.flag r) (by simp) rfl hm]; exact two _ rfl
      · split at hm
        · rw [nt (.esc r) (by simp) rfl hm]; exact esc
        · rename_i hesc
          split at hm
          · rw [nt (.ri r) (by simp) rfl hm]; exact two _ rfl
          · split at hm
            · rw [nt (.flag r) (by simp) rfl hm]; exact two _ rfl
            · split at hm
              · rw [nt (.flag r) (by simp) rfl hm]; exact two _ rfl
              · rw [nt (.raw r) (by simp) rfl hm]
                show 1 ≤ C.width r ∧ C.width r ≤ 8
                have hne : C.width r ≠ 0 := by
                  intro h0
                  apply hesc
                  unfold isToBeEscaped
                  rw [decide_eq_true h0, Bool.or_true]
                have := h r
                omega

/-- Every unit takes a column at least. -/
theorem built_column {C : Cfg} (h : ∀ q, 0 ≤ C.width q ∧ C.width q ≤ 2) (hz : C.zwjWidth = defaultZwjWidth) (n : Moji) (hn : Built C n) :
    ∀ m : Moji, m.norm = n → 1 ≤ m.width C := by
  have hnn : ∀ m : Moji, 0 ≤ m.width C := width_nonneg (fun r => (h r).1) (by
    intro a b h1 h2; rw [hz]; show 0 ≤ a + 1 + b; omega)
  induction hn with
  | base hr => intro m hm; exact (rune2moji_range hr h m hm).1
  | @zwj n q _ hn _ ih =>
    intro m hm
    cases m with
    | zwj a b =>
      show 1 ≤ C.zwjWidth (a.width C) (b.width C)
      rw [hz]
      have h1 := hnn a
      have h2 := hnn b
      show 1 ≤ a.width C + 1 + b.width C
      omega
    | _ => cases hm
  | @vari n q hn _ _ _ ih =>
    intro m hm
    cases m with
    | vari a b =>
      have h1 := hnn a
      cases a with
      | flag r => show (1 : Int) ≤ 2; omega
      | _ => show 1 ≤ Moji.width C _ + 1; omega
    | _ => cases hm
  | @modi n q hn _ _ _ _ ih =>
    intro m hm
    cases m with
    | modi a b =>
      simp only [Moji.norm, Moji.modi.injEq] at hm
      have h1 := ih a hm.1
      have h2 := hnn b
      show 1 ≤ a.width C + b.width C
      omega
    | _ => cases hm

/-- **C60**: every unit of every text takes a column at least on every terminal, so that moving over
it moves the cursor; on an unnamed terminal it takes eight at most. -/
theorem C60_columns (e : Environ) (t : Bytes) (m : Moji) (hm : m ∈ stringToMoji (startCfg (orgRuneWidth T) vs e) t) :
    1 ≤ m.width (startCfg (orgRuneWidth T) vs e) ∧
    (Unnamed e → m.width (startCfg (orgRuneWidth T) vs e) ≤ 8) := by
  have hw : ∀ q, 0 ≤ (startCfg (orgRuneWidth T) vs e).width q ∧ (startCfg (orgRuneWidth T) vs e).width q ≤ 2 := fun q =>
    ⟨(orgRuneWidth_range _ q).1, (orgRuneWidth_range _ q).2.1⟩
  have hb : Built (startCfg (orgRuneWidth T) vs e) m.norm := segs_built _ t _ (List.mem_map.mpr ⟨m, hm, rfl⟩)
  refine ⟨built_column hw rfl m.norm hb m rfl, fun hu => ?_⟩
  obtain ⟨-, h2, h3, h4, -⟩ := unnamed_off (rw := orgRuneWidth T) (vs := vs) hu
  generalize hn : m.norm = n at hb
  cases hb with
  | base hr => exact (rune2moji_range hr hw m hn).2
  | zwj hz _ _ => rw [h2] at hz; cases hz
  | vari _ _ _ hv => unfold isVariationSelectorLike at hv; rw [h3] at hv; cases hv
  | modi _ _ _ _ hv => unfold isEmojiModifier at hv; rw [h4] at hv; cases hv

/-! ## What is shown -/

/-- Text for a terminal without special abilities: control characters but the tab, and printable
characters of the basic plane. -/
def Spec.Basic (isPrint : Nat → Bool) (r : Nat) : Prop := (r < 0x20 ∧ r ≠ 9) ∨ (isPrint r = true ∧ r < 0x10000)

theorem simple_plain (hu : Unnamed e) {r : Nat} (h : Basic T.isPrint r) : Plain (startCfg (orgRuneWidth T) vs e) r := by
  have h9 : T.isPrint 9 = false := rfl
  refine ⟨unnamed_joins hu r, ?_, Or.inl ?_, ?_⟩
  · rintro rfl
    rcases h with h | h
    · exact h.2 rfl
    · rw [h9] at h; cases h.1
  · rcases h with h | h
    · omega
    · exact h.2
  · rcases h with h | h
    · exact Or.inl h.1
    · exact Or.inr ⟨(orgRuneWidth_range _ r).2.2.1 h.1, (orgRuneWidth_range _ r).2.1⟩

/-- Printable ASCII characters are ordinary on every terminal. -/
theorem ascii_plain (hl : Latin T.kind) (hv : HighMarks vs) {r : Nat} (h1 : 0x20 ≤ r) (h2 : r ≤ 0x7E) :
    Plain (startCfg (orgRuneWidth T) vs e) r ∧ (startCfg (orgRuneWidth T) vs e).width r = 1 := by
  have hp : T.isPrint r = true := by
    unfold WidthTables.isPrint
    rw [if_pos (by omega), decide_eq_true h1, decide_eq_true h2]
    rfl
  have hw : orgRuneWidth T (ambiguousIsWide e) r = 1 := by
    unfold orgRuneWidth
    dsimp only
    rw [hp, hl r h1 h2]
    rfl
  refine ⟨⟨?_, by omega, Or.inl (by omega), Or.inr ?_⟩, hw⟩
  · rintro (⟨-, h⟩ | ⟨-, h⟩ | ⟨-, h, -⟩)
    · omega
    · have := hv r h; omega
    · omega
  · show 1 ≤ orgRuneWidth T (ambiguousIsWide e) r ∧ orgRuneWidth T (ambiguousIsWide e) r ≤ 2
    omega

/-- A terminal that takes as many columns for a character as the width function says.  (The characters
readline pads may be narrower than it assumes.) -/
structure Spec.Follows (C : Cfg) (adv : Nat → Int) : Prop where
  plain : ∀ r, Plain C r → 0x20 ≤ r → ¬ Padded C r → adv r = plainColumns C r
  padded : ∀ r, Plain C r → Padded C r → 1 ≤ adv r ∧ adv r ≤ 2

theorem follows_agrees {adv : Rune → Int} (hl : Latin T.kind) (hv : HighMarks vs)
    (h : Follows (startCfg (orgRuneWidth T) vs e) adv) : AgreesPlain (startCfg (orgRuneWidth T) vs e) adv where
  ascii r h1 h2 := by
    obtain ⟨hp, hw⟩ := ascii_plain (e := e) hl hv h1 h2
    rw [h.plain r hp h1 (by
      rintro (hq | hq | hq)
      · have := hq.1; omega
      · have := hq.1; omega
      · omega)]
    unfold plainColumns
    rw [if_neg (by omega), hw]
  control r h1 h2 := (orgRuneWidth_range _ r).2.2.2 (by
    unfold WidthTables.isPrint
    rw [if_pos (by omega), decide_eq_false (show ¬ r ≤ 0x7E by omega), decide_eq_false (show ¬ 0xA1 ≤ r by omega), Bool.and_false]
    rfl)
  plain := h.plain
  padded := h.padded

/-- **C60**: with the default keys and prompt, texts of control characters, printable characters of
the basic plane and no tabs, and a terminal that the environment does not name, at least eight columns
wide: any sequence of keys but Ctrl-T makes `ReadLine` return, and whenever it waits for a key the
terminal shows prompt and line. -/
theorem C60_display {v : Vt} {adv : Rune → Int} (hE : E.cfg = startCfg (orgRuneWidth T) vs e) (hu : Unnamed e)
    (hl : Latin T.kind) (hvs : HighMarks vs) (hA : Follows E.cfg adv)
    (hk : E.keyMap = none) (hg : E.globalKeyMap = defaultGlobalKeyMap)
    (hq : E.predictor = none) (hc : E.clipSet = fun _ t => some t) (hp : E.prompt = none) (hn : E.promptErr = none)
    (hc1 : Sgr E.predictColor.1) (hc2 : Sgr E.predictColor.2)
    (ht : ∀ t, t = E.default ∨ t ∈ E.history ∨ w.clip = some t ∨ FromKey E w t → Over (Basic T.isPrint) t)
    (hi : ∀ k, .key k ∈ w.input → isControlRune (decodeRune k).1 = true ∨ Basic T.isPrint (decodeRune k).1)
    (hs : .key [0x14] ∉ w.input) (he : ∀ e, Ev.err e ∉ w.input.dropLast)
    (hw : 7 < w.termWidth) (hr : ∀ n, .resize n ∈ w.input → 7 < n) (hcur : 0 ≤ w.cursor)
    (hm : v.mode = .ground) (hv : 0 ≤ v.col) (hW : w.termWidth ≤ v.width) (hR : ∀ n, .resize n ∈ w.input → n ≤ v.width) :
    (∃ s r, readLine E w = .ok (s, r)) ∧
    ∀ s, Reachable E w s → noResize s.input ≠ [] → ∃ t, s.out = w.out ++ t ∧
      Spec.Displays E.cfg adv (v.run adv (bytesOf E.cfg t)) 2 (s.termWidth - 5) (runesOf s.text) s.cursor.toNat
        (runesOf (lineText s.suffixList)) ∧
      (v.run adv (bytesOf E.cfg t)).cells (v.run adv (bytesOf E.cfg t)).row 0 = some (0x3E, 0) ∧
      (v.run adv (bytesOf E.cfg t)).cells (v.run adv (bytesOf E.cfg t)).row 1 = some (0x20, 0) := by
  have hp' : ∀ r, Basic T.isPrint r → Plain E.cfg r := fun r h => by rw [hE]; exact simple_plain hu h
  refine C58_texts_partial hk hg hq hc hp hn hc1 hc2 ?_ ?_ ?_ ?_ ?_ ?_ hs he hw hr hcur hm hv hW hR
  · rw [hE] at hA ⊢; exact follows_agrees hl hvs hA
  · intro r h1 h2; rw [hE]; exact (ascii_plain hl hvs h1 h2).1
  · intro r; rw [hE]; exact (orgRuneWidth_range _ r).1
  · intro a b h1 h2; rw [hE]; show 0 ≤ a + 1 + b; omega
  · intro t h; exact fun r hr => hp' r (ht t h r hr)
  · intro k h
    rcases hi k h with h | h
    · exact Or.inl h
    · exact Or.inr (hp' _ h)

/-! ## Examples -/

namespace Example

/-- Visual Studio Code started from Windows Terminal. -/
def inCode : Environ := fun x =>
  if x = "WT_SESSION" then "9b3" else if x = "WT_PROFILE_ID" then "{61c}" else if x = "VSCODE_PID" then "4711"
  else if x = "TERM_PROGRAM" then "vscode" else ""

/-- Windows Terminal. -/
def inWindows : Environ := fun x => if x = "VSCODE_PID" then "" else inCode x

theorem inCode_unnamed : Unnamed inCode := by
  intro t
  cases t <;> simp [Names, inCode]

theorem inWindows_named : Names inWindows .windowsTerminal := by simp [Names, inWindows, inCode]

/-- Tables in which everything from U+1100 on is wide, `±` (U+00B1) is
ambiguous and joiners are not printable. -/
def tables : WidthTables where
  printable := fun r => !(decide (0x200B ≤ r) && decide (r ≤ 0x200F))
  kind := fun r => if r = 0xB1 then .ambiguous else if r < 0x1100 then .narrow else .wide

/-- The terminal of the examples, in an environment. -/
def started (e : Environ) : Cfg := startCfg (orgRuneWidth tables) (fun r => 0xFE00 ≤ r ∧ r ≤ 0xFE0F) e

/-- A farmer (man, joiner, sheaf of rice) is three characters in Code and one in Windows Terminal. -/
example : (stringToMoji (started inCode) (utf8 ['👨', '‍', '🌾'])).map Moji.write =
    [utf8 ['👨'], utf8 ['‍'], utf8 ['🌾']] ∧
    (stringToMoji (started inWindows) (utf8 ['👨', '‍', '🌾'])).map Moji.write = [utf8 ['👨', '‍', '🌾']] := by
  decide +kernel

/-- What is written for it: the numbers of the code points. -/
example : (stringToMoji (started inCode) (utf8 ['👨', '‍', '🌾'])).map (Moji.print (started inCode)) =
    [b "<1F468>", b "<200D>", b "<1F33E>"] := by decide +kernel

/-- An ambiguous character takes two columns outside Windows Terminal. -/
example : (started inCode).width 0xB1 = 2 ∧ (started inWindows).width 0xB1 = 1 ∧ (started inCode).width 0x7F = 0 := by
  decide +kernel

/-- Typing the farmer, one Backspace and Enter. -/
example : outcome (readLine (env (started inCode)) { input := keys ["👨", "‍", "🌾", "\x08", "\r"] }) =
      .inr (utf8 ['👨', '‍'], .nil) ∧
    outcome (readLine (env (started inWindows)) { input := keys ["👨", "‍", "🌾", "\x08", "\r"] }) =
      .inr ([], .nil) := by decide +kernel

/-- A joiner at the start of the line, a letter, then kill and yank: the line comes back in Code as it
was; in Windows Terminal it does not (C10_refuted_orphan). -/
example : look (after (env (started inCode)) { input := keys ["‍", "x", "\x15", "\x19"] } 4) =
    .inr ([utf8 ['‍'], b "x"], 2, 0) := by decide +kernel

theorem started_basic {r : Nat} (h : (r < 0x20 ∧ r ≠ 9) ∨ (0x3000 ≤ r ∧ r < 0x10000) ∨ (0x20 ≤ r ∧ r ≤ 0x7E)) :
    Basic tables.isPrint r := by
  rcases h with h | h | h
  · exact Or.inl h
  · refine Or.inr ⟨?_, h.2⟩
    unfold WidthTables.isPrint
    rw [if_neg (by omega)]
    show (!(decide (0x200B ≤ r) && decide (r ≤ 0x200F))) = true
    rw [decide_eq_false (show ¬ r ≤ 0x200F by omega), Bool.and_false]
    rfl
  · refine Or.inr ⟨?_, by omega⟩
    unfold WidthTables.isPrint
    rw [if_pos (by omega), decide_eq_true h.1, decide_eq_true h.2]
    rfl

/-- Any sequence of keys of ASCII and CJK characters and control characters but Tab and Ctrl-T in Visual
Studio Code's terminal. -/
theorem keys_inCode (l : List Bytes) (hl : ∀ k ∈ l, k ≠ [0x14] ∧ k ≠ [] ∧
    ∀ r ∈ runesOf k, (r < 0x20 ∧ r ≠ 9) ∨ (0x3000 ≤ r ∧ r < 0x10000) ∨ (0x20 ≤ r ∧ r ≤ 0x7E)) :
    (∃ s r, readLine (env (started inCode)) { input := l.map .key } = .ok (s, r)) ∧
    ∀ s, Reachable (env (started inCode)) { input := l.map .key } s → noResize s.input ≠ [] →
      ∃ t, s.out = t ∧ Spec.Displays (started inCode) (plainColumns (started inCode))
        (screen.run (plainColumns (started inCode)) (bytesOf (started inCode) t)) 2 (s.termWidth - 5) (runesOf s.text)
        s.cursor.toNat (runesOf (lineText s.suffixList)) := by
  have hkey : ∀ k, .key k ∈ l.map Ev.key → k ∈ l := by
    intro k h
    obtain ⟨k', h', e⟩ := List.mem_map.mp h
    cases e
    exact h'
  have hres : ∀ n, .resize n ∉ l.map Ev.key := by
    intro n h
    obtain ⟨k', h', e⟩ := List.mem_map.mp h
    cases e
  have herr : ∀ n, .err n ∉ l.map Ev.key := by
    intro n h
    obtain ⟨k', h', e⟩ := List.mem_map.mp h
    cases e
  have hA : Follows (started inCode) (plainColumns (started inCode)) := ⟨fun r _ _ _ => rfl, fun r hp _ =>
    ⟨(plain_columns hp).2.2.1, (plain_columns hp).2.2.2⟩⟩
  obtain ⟨h1, h2⟩ := C60_display (E := env (started inCode)) (w := { input := l.map .key }) (v := screen)
    (T := tables) (vs := fun r => 0xFE00 ≤ r ∧ r ≤ 0xFE0F) (e := inCode) rfl inCode_unnamed
    (fun r q1 q2 => by
      show (if r = 0xB1 then WidthKind.ambiguous else if r < 0x1100 then .narrow else .wide) = _
      rw [if_neg (by omega), if_pos (by omega)])
    (fun r h => by simp only [decide_eq_true_eq] at h; omega) hA rfl rfl rfl rfl rfl rfl (Or.inl rfl) (Or.inl rfl)
    (by
      rintro t (rfl | ht | ht | ht)
      · exact over_nil
      · cases ht
      · cases ht
      · exact fun r hr => started_basic ((hl _ (hkey _ (env_typed rfl rfl ht))).2.2 r hr))
    (by
      intro k hk
      have h := hl k (hkey k hk)
      refine Or.inr (started_basic (h.2.2 _ ?_))
      cases hk : k with
      | nil => exact absurd hk h.2.1
      | cons x t => rw [runesOf_cons]; simp)
    (fun h => (hl _ (hkey _ h)).1 rfl) (fun e h => herr e ((List.dropLast_sublist _).subset h))
    (by show (7 : Int) < 80; decide) (fun n h => absurd h (hres n)) (Int.le_refl 0) rfl (by decide) (Int.le_refl 80)
    (fun n h => absurd h (hres n))
  refine ⟨h1, fun s h hk => ?_⟩
  obtain ⟨t, e, hd, -⟩ := h2 s h hk
  exact ⟨t, e, hd⟩

end Example

end Readline
