import Verif.Model.Buffer
import Verif.Model.Words
import Verif.Model.Util
import Verif.Spec.Undo
import Verif.Spec.Client
import Verif.Proof.Buffer
import Verif.Proof.Undo
import Verif.Props.Buffer
import Verif.Spec.Words
import Verif.Props.Words
import Verif.Props.Util
import Verif.Model.History
import Verif.Proof.Utf8
import Verif.Spec.History
import Verif.Proof.History
import Verif.Props.History
import Verif.Props.HistoryFile
import Verif.Model.Monad
import Verif.Model.Editor
import Verif.Model.KeyMap
import Verif.Model.Emacs
import Verif.Model.Vi
import Verif.Model.Complete
import Verif.Tests.Harness
import Verif.Tests.Vi
import Verif.Tests.Editor
import Verif.Proof.Wp
import Verif.Proof.Display
import Verif.Proof.Editor
import Verif.Proof.Steady
import Verif.Spec.Editor
import Verif.Proof.Pres
import Verif.Proof.Log
import Verif.Proof.Uses
import Verif.Proof.Tidy
import Verif.Proof.Sug
import Verif.Proof.Lands
import Verif.Props.Witness
import Verif.Props.Editor
import Verif.Spec.Nav
import Verif.Proof.Nav
import Verif.Props.Navigate
import Verif.Spec.Search
import Verif.Proof.Search
import Verif.Props.Search
import Verif.Spec.Complete
import Verif.Proof.Complete
import Verif.Props.Complete
import Verif.Proof.Errs
import Verif.Proof.Keys
import Verif.Proof.Open
import Verif.Spec.Loop
import Verif.Props.Keys
import Verif.Spec.Emacs
import Verif.Props.Emacs
import Verif.Proof.Rests
import Verif.Proof.ViMode
import Verif.Spec.Vi
import Verif.Proof.ViKeys
import Verif.Proof.ViWords
import Verif.Proof.ViMove
import Verif.Proof.ViPress
import Verif.Props.Vi
import Verif.Props.ViMove
import Verif.Proof.ViEdit
import Verif.Props.ViEdit
import Verif.Proof.ViUndo
import Verif.Props.ViUndo
import Verif.Spec.Board
import Verif.Spec.ViLine
import Verif.Proof.ViPast
import Verif.Proof.ViEnter
import Verif.Proof.ViPen
import Verif.Proof.ViBoard
import Verif.Proof.ViRead
import Verif.Spec.Sheet
import Verif.Proof.Beside
import Verif.Proof.Sheet
import Verif.Proof.Dry
import Verif.Proof.SheetRead
import Verif.Proof.SheetNext
import Verif.Props.Sheet
import Verif.Spec.Desk
import Verif.Proof.Desk
import Verif.Proof.DeskRead
import Verif.Proof.DeskNext
import Verif.Props.Desk
import Verif.Spec.Bench
import Verif.Proof.Acts
import Verif.Proof.Bench
import Verif.Proof.BenchKeys
import Verif.Proof.BenchStep
import Verif.Proof.BenchRead
import Verif.Proof.BenchNext
import Verif.Proof.BenchFound
import Verif.Props.Bench
import Verif.Spec.Table
import Verif.Proof.Table
import Verif.Proof.TableNext
import Verif.Props.Table
import Verif.Props.ViBoard
import Verif.Props.ViRead
import Verif.Props.ViMoved
import Verif.Spec.Screen
import Verif.Proof.Screen
import Verif.Props.Screen
import Verif.Props.List
import Verif.Props.Redraw
import Verif.Props.NoPanic
import Verif.Proof.ViFuel
import Verif.Props.ViEnds
import Verif.Proof.ViSafe
import Verif.Proof.ViSafeKeys
import Verif.Proof.ViSafeCore
import Verif.Proof.ViSafeRun
import Verif.Proof.ViFits
import Verif.Props.ViNoPanic
import Verif.Proof.ViDot
import Verif.Props.ViDot
import Verif.Model.Path
import Verif.Spec.File
import Verif.Proof.File
import Verif.Props.File
import Verif.Proof.Ink
import Verif.Proof.Listed
import Verif.Proof.Redraw
import Verif.Spec.View
import Verif.Proof.Fresh
import Verif.Proof.FreshKeys
import Verif.Proof.Page
import Verif.Proof.Opening
import Verif.Props.View
import Verif.Proof.Enter
import Verif.Props.Enter
import Verif.Model.Event
import Verif.Spec.Event
import Verif.Proof.Event
import Verif.Props.Event
import Verif.Model.Context
import Verif.Spec.Talk
import Verif.Proof.Recall
import Verif.Proof.Talk
import Verif.Props.Converse
import Verif.Props.Collect
import Verif.Props.Take
import Verif.Props.Talk
import Verif.Props.Accept
import Verif.Spec.Rack
import Verif.Proof.Rack
import Verif.Props.Rack
import Verif.Props.Tray
import Verif.Props.Hunt
import Verif.Props.Reach
import Verif.Props.Elsewhere
import Verif.Props.Blind
import Verif.Props.Akin
import Verif.Props.Draft
import Verif.Props.ViDraft
import Verif.Props.Resume
import Verif.Props.Stroll
import Verif.Props.Retell
