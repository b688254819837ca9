import Verif.Model.Broken
import Verif.Model.Buffer
import Verif.Model.Color
import Verif.Model.Commands
import Verif.Model.Completion
import Verif.Model.Device
import Verif.Model.Estate
import Verif.Model.FileTab
import Verif.Model.GetKey
import Verif.Model.KeyMap
import Verif.Model.Late
import Verif.Model.Memory
import Verif.Model.Misc
import Verif.Model.Moji
import Verif.Model.Output
import Verif.Model.Own
import Verif.Model.ReadLine
import Verif.Model.Registry
import Verif.Model.Reply
import Verif.Model.Ruler
import Verif.Model.Shell
import Verif.Model.Single
import Verif.Model.Slice
import Verif.Model.Statements
import Verif.Model.Term
import Verif.Model.Termcheck
import Verif.Model.Threads
import Verif.Model.Tiny
import Verif.Model.Trim
import Verif.Model.Utf8
import Verif.Model.Wordstar
import Verif.Spec.Alone
import Verif.Spec.Ample
import Verif.Spec.Browse
import Verif.Spec.Burst
import Verif.Spec.Calm
import Verif.Spec.Carry
import Verif.Spec.Clipboard
import Verif.Spec.Columns
import Verif.Spec.Completion
import Verif.Spec.Config
import Verif.Spec.Editor
import Verif.Spec.Example
import Verif.Spec.Fields
import Verif.Spec.Glass
import Verif.Spec.Inert
import Verif.Spec.Ink
import Verif.Spec.Joiner
import Verif.Spec.KeyCodes
import Verif.Spec.Keys
import Verif.Spec.LastWord
import Verif.Spec.Ledge
import Verif.Spec.Line
import Verif.Spec.Lone
import Verif.Spec.Looks
import Verif.Spec.Methods
import Verif.Spec.Names
import Verif.Spec.Notebook
import Verif.Spec.Own
import Verif.Spec.Pace
import Verif.Spec.PageOnScreen
import Verif.Spec.Plain
import Verif.Spec.Poster
import Verif.Spec.Prefix
import Verif.Spec.Prompt
import Verif.Spec.Quote
import Verif.Spec.Reads
import Verif.Spec.Recall
import Verif.Spec.Reply
import Verif.Spec.Row
import Verif.Spec.Scroll
import Verif.Spec.Search
import Verif.Spec.Seen
import Verif.Spec.SeenTabs
import Verif.Spec.Segment
import Verif.Spec.Serial
import Verif.Spec.Shell
import Verif.Spec.Shown
import Verif.Spec.Sign
import Verif.Spec.Source
import Verif.Spec.Split
import Verif.Spec.Strings
import Verif.Spec.Tab
import Verif.Spec.TakeBack
import Verif.Spec.Termcheck
import Verif.Spec.Terminal
import Verif.Spec.Text
import Verif.Spec.Textbook
import Verif.Spec.Tint
import Verif.Spec.TinyRows
import Verif.Spec.Transcript
import Verif.Spec.Trim
import Verif.Spec.Undo
import Verif.Spec.Visible
import Verif.Spec.Vt
import Verif.Spec.Wiped
import Verif.Spec.Word
import Verif.Spec.Wordstar
import Verif.Proof.Ahead
import Verif.Proof.Aligned
import Verif.Proof.Ample
import Verif.Proof.AmpleCall
import Verif.Proof.AmpleCheck
import Verif.Proof.AmpleSession
import Verif.Proof.Behind
import Verif.Proof.Burst
import Verif.Proof.BurstCall
import Verif.Proof.Carry
import Verif.Proof.Clean
import Verif.Proof.Completion
import Verif.Proof.Dialogue
import Verif.Proof.Display
import Verif.Proof.Draw
import Verif.Proof.Fields
import Verif.Proof.Frame
import Verif.Proof.Glass
import Verif.Proof.Goto
import Verif.Proof.Ink
import Verif.Proof.InkCall
import Verif.Proof.Input
import Verif.Proof.Invariant
import Verif.Proof.Jam
import Verif.Proof.LastWord
import Verif.Proof.Late
import Verif.Proof.Layout
import Verif.Proof.Ledge
import Verif.Proof.LedgeEnd
import Verif.Proof.Local
import Verif.Proof.Lone
import Verif.Proof.Memory
import Verif.Proof.Merge
import Verif.Proof.Mild
import Verif.Proof.Notebook
import Verif.Proof.Observe
import Verif.Proof.Out
import Verif.Proof.Own
import Verif.Proof.PaceCall
import Verif.Proof.Pages
import Verif.Proof.Pending
import Verif.Proof.Plain
import Verif.Proof.Printed
import Verif.Proof.Quote
import Verif.Proof.Reads
import Verif.Proof.Refine
import Verif.Proof.RefineCall
import Verif.Proof.Reply
import Verif.Proof.Room
import Verif.Proof.Rows
import Verif.Proof.Safe
import Verif.Proof.SafeCall
import Verif.Proof.Schedule
import Verif.Proof.Scroll
import Verif.Proof.Segment
import Verif.Proof.Session
import Verif.Proof.Shift
import Verif.Proof.Show
import Verif.Proof.Sign
import Verif.Proof.Slice
import Verif.Proof.Source
import Verif.Proof.Split
import Verif.Proof.Statements
import Verif.Proof.Steady
import Verif.Proof.Strings
import Verif.Proof.Tab
import Verif.Proof.Tabs
import Verif.Proof.Textbook
import Verif.Proof.Textbook2
import Verif.Proof.Textbook3
import Verif.Proof.Textbook4
import Verif.Proof.Textbook5
import Verif.Proof.Textbook6
import Verif.Proof.Threads
import Verif.Proof.Tint
import Verif.Proof.TintCall
import Verif.Proof.Trace
import Verif.Proof.Transcript
import Verif.Proof.Trim
import Verif.Proof.Twin
import Verif.Proof.TwinCall
import Verif.Proof.UndoCall
import Verif.Proof.UndoLog
import Verif.Proof.Units
import Verif.Proof.Utf8
import Verif.Proof.Vis
import Verif.Proof.VisCall
import Verif.Proof.VisMove
import Verif.Proof.VisSession
import Verif.Proof.VisSwap
import Verif.Proof.Vt
import Verif.Proof.Waits
import Verif.Proof.Wiped
import Verif.Proof.WipedEnd
import Verif.Proof.Word
import Verif.Props.C01
import Verif.Props.C02
import Verif.Props.C03
import Verif.Props.C04
import Verif.Props.C05
import Verif.Props.C06
import Verif.Props.C07
import Verif.Props.C08
import Verif.Props.C09
import Verif.Props.C10
import Verif.Props.C11
import Verif.Props.C12
import Verif.Props.C13
import Verif.Props.C14
import Verif.Props.C15
import Verif.Props.C16
import Verif.Props.C17
import Verif.Props.C18
import Verif.Props.C19
import Verif.Props.C20
import Verif.Props.C21
import Verif.Props.C22
import Verif.Props.C23
import Verif.Props.C24
import Verif.Props.C25
import Verif.Props.C25Bytes
import Verif.Props.C26
import Verif.Props.C27
import Verif.Props.C28
import Verif.Props.C29
import Verif.Props.C30
import Verif.Props.C31
import Verif.Props.C32
import Verif.Props.C33
import Verif.Props.C34
import Verif.Props.C35
import Verif.Props.C36
import Verif.Props.C36Names
import Verif.Props.C37
import Verif.Props.C38
import Verif.Props.C39
import Verif.Props.C40
import Verif.Props.C41
import Verif.Props.C42
import Verif.Props.C43
import Verif.Props.C44
import Verif.Props.C45
import Verif.Props.C46
import Verif.Props.C47
import Verif.Props.C48
import Verif.Props.C49
import Verif.Props.C49Error
import Verif.Props.C50
import Verif.Props.C51
import Verif.Props.C52
import Verif.Props.C53
import Verif.Props.C54
import Verif.Props.C55
import Verif.Props.C56
import Verif.Props.C57
import Verif.Props.C58
import Verif.Props.C59
import Verif.Props.C60
import Verif.Props.C61
import Verif.Props.C62
import Verif.Props.C63
import Verif.Props.C64
import Verif.Props.C65
import Verif.Props.C66
import Verif.Props.C67
import Verif.Props.C68
import Verif.Props.C69
import Verif.Props.C70
import Verif.Props.C71
import Verif.Props.C72
import Verif.Props.C73
import Verif.Props.C74
import Verif.Props.C75
import Verif.Props.C76
import Verif.Props.C76Returns
import Verif.Props.C77
import Verif.Props.C78
import Verif.Props.C79
import Verif.Props.C80
import Verif.Props.C81
import Verif.Props.C82
import Verif.Props.C83
import Verif.Props.C84
import Verif.Props.C85
import Verif.Props.C86
import Verif.Props.C87
import Verif.Props.C88
import Verif.Props.C88Shell
import Verif.Props.C89
import Verif.Props.C90
import Verif.Props.C91
import Verif.Props.C91End
import Verif.Props.Tests
