import Verif.Proof.Steady
import Verif.Proof.AmpleCheck
import Verif.Proof.Plain
import Verif.Props.C01
import Verif.Props.C29
/-!
# C26: after a command the screen shows the visible part of the line

`Spec/Row.lean` is a row of a terminal: cells, the column of the cursor, what each piece of output
does to them.  `Spec/Shown.lean` says when a row shows a line.

* `C26_repaint_partial`: a repaint, whatever the row was before.  The units from `ViewStart` on that
  fit are in the row, then the prediction as far as it fits, then blanks; the terminal cursor stands
  behind the units between `ViewStart` and the cursor.  "Fit" means what the code takes it to mean:
  taking fewer columns than `ViewWidth`.  The tabs must be at their columns and the cursor in the
  view.
* `C26_partial`: sessions.  Not every command repaints; most of them print a few units and
  move the cursor.  Whenever a key is awaited the row shows the line, if the session is
  `Steady`: no tabs, no unit more than twice as wide as another, and so on.
* `C26_ordinary_partial`: the same with conditions on the texts, the keys and the terminal alone: ordinary
  characters, a prompt of constant width, and room for it and two wide characters.
* `C26_tabs_partial`: lines with tabs that always fit (`Unscrolled`): the row shows the whole line, and the tabs
  end at the stops counted from the end of the prompt.
* `C26_refuted_swap_tab`: exchanging a tab and a character leaves the row wrong, even if the line fits.
* `C26_refuted_swap`, `C26_refuted_error`: without these assumptions it is false.  Exchanging two
  characters of different widths in a scrolled line leaves a cell of the old row behind; an error
  of the terminal during an incremental search leaves the search prompt behind.
-/
namespace Readline
open Spec Example

variable {E : Env} {lit : Bytes → Row → Row} {s s' : St} {w : World}

theorem C26_repaint_partial (hS : Sane E lit) (ha : s.aligned E) (hv : InView E s) (h : repaint E s = .ok s') :
    (s'.mojis = s.mojis ∧ s'.cursor = s.cursor ∧ s'.viewStart = s.viewStart ∧ s'.topColumn = s.topColumn ∧
      s'.termWidth = s.termWidth) ∧
    ∃ t view pred, s'.out = s.out ++ t ∧
      FitsIn E.cfg s.viewWidth (s.mojis.drop s.viewStart.toNat) view ∧
      FitsIn E.cfg (s.viewWidth - columns E.cfg view) (s'.visibleSuffix E) pred ∧
      ∀ r : Row,
        (∀ x, s.topColumn ≤ x →
          (Row.run E.cfg lit r t).cells x = layout E.cfg (view ++ pred) s.topColumn x) ∧
        (Row.run E.cfg lit r t).col = s.topColumn + columns E.cfg (s.between s.viewStart s.cursor) := by
  obtain ⟨x, e⟩ := updateSuffix_eq E s
  have ha' : (updateSuffix E s).aligned E := by rw [e]; exact ha
  have hv' : InView E (updateSuffix E s) := by rw [e]; exact ⟨hv.low, hv.mid, hv.high, hv.fits⟩
  obtain ⟨hm, ⟨b, o, eb⟩, view, pred, h1, h2, t, ht, hr⟩ :=
    repaintNoSuffix_row (lit := lit) hS.width hS.color1 hS.color2 ha' hv' h
  have hmm : (updateSuffix E s).mojis = s.mojis := by rw [e]; rfl
  have hvs : s'.visibleSuffix E = (updateSuffix E s).visibleSuffix E := by
    have hl : s'.len = (updateSuffix E s).len := by rw [← mojis_length, ← mojis_length, hm]
    unfold St.visibleSuffix
    rw [hl, eb]
    rfl
  refine ⟨⟨hm.trans hmm, by rw [eb, e], by rw [eb, e], by rw [eb, e], by rw [eb, e]⟩, t, view, pred, ?_, ?_, ?_, ?_⟩
  · rw [ht, e]
  · rw [e] at h1; exact h1
  · rw [hvs]
    have : (updateSuffix E s).viewWidth = s.viewWidth := by rw [e]; rfl
    rw [this] at h2
    exact h2
  · intro r
    have := (hr r).1
    refine ⟨fun y hy => ?_, ?_⟩
    · rw [e] at this; exact this.cells y hy
    · rw [e] at this; exact this.col

theorem C26_partial (hS : Sane E lit) (hb : BuiltinKeys E) (hw : Steady E w) (h : Reachable E w s)
    (hk : noResize s.input ≠ []) :
    ∃ t, s.out = w.out ++ t ∧ ∀ r, Shows E s (Row.run E.cfg lit r t) :=
  session_shows hS hb hw h hk

theorem C26_ordinary_partial {P : Nat → Prop} (hS : Sane E lit) (hb : BuiltinKeys E) (ho : Ordinary P E w)
    (h : Reachable E w s) (hk : noResize s.input ≠ []) :
    ∃ t, s.out = w.out ++ t ∧ ∀ r, Shows E s (Row.run E.cfg lit r t) :=
  session_shows hS hb (ordinary_steady hb ho) h hk

/-- Lines with tabs. -/
theorem C26_tabs_partial (hS : Sane E lit) (hb : BuiltinKeys E) (hw : Unscrolled E w) (h : Reachable E w s)
    (hk : noResize s.input ≠ []) :
    TabsAtStops E.cfg s.mojis ∧ TabsFill E.cfg s.mojis ∧
    ∃ t, s.out = w.out ++ t ∧ ∀ r, Entire E s (Row.run E.cfg lit r t) :=
  ⟨(C29_partial hb h).1, (C29_partial hb h).2, session_entire hS hb hw h hk⟩

/-! ## Examples -/

namespace Example

/-- Typing, moving over, inserting before, deleting and undoing tabs, a killed rest, a resize. -/
def tabbing : World where
  termWidth := 40
  input := keys ["a", "\t", "b", "\t", "c", "\x01", "x", "\x06", "\x06", "\x08", "\x1f"] ++ [.resize 44] ++
    keys ["\x0b", "\x19", "\x02", "日", "\x05", "\r"]

/-- The session is as assumed: at the end the line is `xa`, tab, `b`, tab, `日c`. -/
example : Unscrolled (env plain) tabbing ∧ BuiltinKeys (env plain) ∧
    look (after (env plain) tabbing 17) =
      .inr ([b "x", b "a", b "\t", b "b", b "\t", b "日", b "c"], 7, 0) :=
  ⟨unscrolledCheck_ok (defaultKeys_builtin plain) (by decide +kernel), defaultKeys_builtin plain, by decide +kernel⟩

/-- A scrolled line with a tab and wide characters. -/
def tabbed : World where
  termWidth := 14
  input := keys ["a", "日", "\t", "b", "日", "日", "c", "\x02", "\x02", "\r"]

/-- After nine keys the line is scrolled by two units (the tab is the first one shown), the
cursor is in the middle. -/
example : ∃ s, Reachable (env plain) tabbed s ∧ s.aligned (env plain) ∧ InView (env plain) s ∧
    s.viewStart = 2 ∧ s.cursor = 5 ∧ s.len = 7 := by
  obtain ⟨s, h1, h2⟩ := gets_ok (E := env plain) (w := tabbed) (n := 9)
    (p := fun s => decide (s.viewStart = 2 ∧ s.cursor = 5 ∧ s.len = 7 ∧
      columns plain (s.between s.viewStart s.cursor) < s.viewWidth)) (by decide +kernel)
  obtain ⟨a1, a2, a3, a4⟩ := of_decide_eq_true h2
  exact ⟨s, h1, reachable_aligned (defaultKeys_builtin plain) h1, ⟨by omega, by omega, by omega, a4⟩, a1, a2, a3⟩

/-- Type, move, scroll, delete, walk through the history, search, undo, clear, resize. -/
def busyEnv : Env :=
  { env plain with history := [b "git status", b "日本語の行"], predictColor := (b "\x1b[3m", b "\x1b[0m") }

def busy : World where
  termWidth := 12
  input := keys ["a", "日", "b", "c", "d", "\x02", "\x02", "x", "\x01", "\x06", "\x06", "\x06", "\x06", "\x06", "\x05",
    "\x08", "\x10", "\x10", "\x0b", "\x1a", "\x12", "g", "\r", "\x17", "\x1bb", "\x1bf", "\x0c", "\x1f"] ++
    [.resize 20, .resize 9, .key (b "\r")]

theorem busy_steady : Steady busyEnv busy :=
  steadyCheck_ok (k := 1) (defaultKeys_builtin plain) (by decide +kernel)

theorem busy_sane : Sane busyEnv mute := mute_sane plain_widths.1 plain_widths.2

/-- The session gets through: after 18 events the line is scrolled. -/
example : ∃ s, Reachable busyEnv busy s ∧ noResize s.input ≠ [] ∧ 0 < s.viewStart := by
  obtain ⟨s, h1, h2⟩ := gets_ok (E := busyEnv) (w := busy) (n := 18)
    (p := fun s => decide (noResize s.input ≠ [] ∧ 0 < s.viewStart)) (by decide +kernel)
  exact ⟨s, h1, of_decide_eq_true h2⟩

example {s : St} (h : Reachable busyEnv busy s) (hk : noResize s.input ≠ []) :
    ∃ t, s.out = [] ++ t ∧ ∀ r, Shows busyEnv s (Row.run busyEnv.cfg mute r t) :=
  C26_partial busy_sane (defaultKeys_builtin plain) busy_steady h hk

/-- The session is ordinary. -/
theorem busy_ordinary : Ordinary (fun r => true = true ∧ Plain plain r) busyEnv busy :=
  ordinaryCheck_ok (p := fun _ => true) rfl rfl rfl rfl rfl rfl
    (fun q hq hs => by
      have : ∀ ev ∈ busy.input, (match ev with
        | .key q => (match lookupCommand busyEnv q with | .swapChar => true | _ => false)
        | _ => false) = false := by decide +kernel
      have := this _ hq
      dsimp only at this
      rw [hs] at this
      cases this)
    (by decide +kernel)

/-- Letters, exchanged while the line is scrolled. -/
def letters : World where
  termWidth := 10
  input := keys ["a", "b", "c", "d", "e", "f", "\x02", "\x14", "\x14", "\x1a", "\r"]

theorem letters_ordinary : Ordinary (fun r => (0x20 ≤ r && r < 0x7F) = true ∧ Plain plain r) (env plain) letters :=
  ordinaryCheck_ok (E := env plain) (p := fun r => 0x20 ≤ r && r < 0x7F) rfl rfl rfl rfl rfl rfl
    (fun q _ _ => ⟨1, fun r hr _ => by
      simp only [Bool.and_eq_true, decide_eq_true_eq] at hr
      unfold plainColumns
      rw [if_neg (by omega)]
      show (if r < 0x1100 then (1 : Int) else 2) = 1
      rw [if_pos (by omega)]⟩)
    (by decide +kernel)

end Example

/-! ## Refutations -/

/-- What the row shows when the cursor is at the end and there are no predictions. -/
theorem Spec.Shows.atEnd {r : Row} (h : Shows E s r) (hc : s.cursor = s.len) (hp : E.predictColor.1 = []) {x : Int}
    (hx : s.topColumn ≤ x) : r.cells x = layout E.cfg (s.between s.viewStart s.cursor) s.topColumn x := by
  obtain ⟨right, pred, h1, _, h3, _, h5, _⟩ := h.cells
  have : right = [] := by
    rw [hc] at h1
    have hn : s.between s.len s.len = [] := by
      unfold St.between
      exact List.drop_eq_nil_of_le (by rw [List.length_take]; omega)
    rw [hn] at h1
    exact List.prefix_nil.mp h1
  rw [h3 x hx, this, h5 hp, List.append_nil, List.append_nil]

/-- The row of a session that began with an empty row. -/
def rowOf (E : Env) (s : St) : Row := Row.run E.cfg mute ⟨0, fun _ => none, 0⟩ s.out

/-- The row of the state is not what it should be in column `x`. -/
def wrongAt (E : Env) (x : Int) (s : St) : Bool :=
  decide (s.cursor = s.len ∧ s.topColumn ≤ x ∧ noResize s.input ≠ [] ∧
    (rowOf E s).cells x ≠ layout E.cfg (s.between s.viewStart s.cursor) s.topColumn x)

theorem wrongAt_ok {n : Nat} {x : Int} (hp : E.predictColor.1 = []) (h : gets E w n (wrongAt E x) = true) :
    ∃ s, Reachable E w s ∧ noResize s.input ≠ [] ∧ ¬ Shows E s (rowOf E s) := by
  obtain ⟨s, h1, h2⟩ := gets_ok h
  obtain ⟨a1, a2, a3, a4⟩ := of_decide_eq_true h2
  exact ⟨s, h1, a3, fun hs => a4 (hs.atEnd a1 hp a2)⟩

/-- `日aab`, cursor behind the second `a`, on a terminal of 10 columns (the line is scrolled
by one unit), then Ctrl-T: the line is `日aba`, the row `> abaa`. -/
theorem C26_refuted_swap : ∃ s, Reachable (env plain) { termWidth := 10, input := keys ["b", "\x01", "日", "a", "a", "\x14", "\r"] } s ∧
    noResize s.input ≠ [] ∧ ¬ Shows (env plain) s (rowOf (env plain) s) :=
  wrongAt_ok (n := 6) (x := 5) rfl (by decide +kernel)

/-- An error of the terminal in the middle of Ctrl-R: the row still shows `(i-search)[]:`. -/
theorem C26_refuted_error : ∃ s, Reachable (env plain) { termWidth := 20, input := keys ["a", "b", "\x12"] ++ [.err [], .key (b "\r")] } s ∧
    noResize s.input ≠ [] ∧ ¬ Shows (env plain) s (rowOf (env plain) s) :=
  wrongAt_ok (n := 3) (x := 2) rfl (by decide +kernel)

/-- What a row that shows the whole line has in column `x`. -/
def amissAt (E : Env) (x : Int) (s : St) : Bool :=
  decide (s.topColumn ≤ x ∧ noResize s.input ≠ [] ∧ mostOf E.cfg s.mojis < s.viewWidth ∧
    (rowOf E s).cells x ≠ layout E.cfg s.mojis s.topColumn x)

theorem amissAt_ok {n : Nat} {x : Int} (h : gets E w n (amissAt E x) = true) :
    ∃ s, Reachable E w s ∧ noResize s.input ≠ [] ∧ Ample E s ∧ ¬ Entire E s (rowOf E s) := by
  obtain ⟨s, h1, h2⟩ := gets_ok h
  obtain ⟨a1, a2, a3, a4⟩ := of_decide_eq_true h2
  exact ⟨s, h1, a2, a3, fun hs => a4 (hs.cells x a1)⟩

/-- `a`, a tab, `b`; the cursor on the tab, then Ctrl-T.  The tab now comes first and takes four columns,
but the `b` behind it is not printed again. -/
theorem C26_refuted_swap_tab : ∃ s, Reachable (env plain) { termWidth := 40, input := keys ["a", "\t", "b", "\x01", "\x06", "\x14", "\r"] } s ∧
    noResize s.input ≠ [] ∧ Ample (env plain) s ∧ ¬ Entire (env plain) s (rowOf (env plain) s) :=
  amissAt_ok (n := 6) (x := 7) (by decide +kernel)

end Readline
