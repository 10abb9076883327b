import Verif.Numbering.Props
import Verif.Datatypes.Props
import Verif.Duration.Props
import Verif.Pitch.Props
import Verif.Pitch.Index
import Verif.Key.Props
import Verif.Transpose.Props
import Verif.Node.Props
import Verif.Heap.Props
import Verif.Range.Props
import Verif.Range.Props2
import Verif.Range.Props3
import Verif.Range.Truth
import Verif.Text.Props
import Verif.Space.Props
import Verif.Mapping.Props
import Verif.Str.Props
import Verif.Add.Props
import Verif.Build.Props
import Verif.Indent.Props
import Verif.Indent.Props2
import Verif.Find.Props
import Verif.Edits.Props
import Verif.Relative.Props
import Verif.Relative.Select
import Verif.Attr.Props
import Verif.Rhythm.Props
import Verif.Time.Props
import Verif.Scope.Props
import Verif.Assign.Props
import Verif.Group.Props
import Verif.RangeEdit.Props
import Verif.Query.Props
import Verif.Read.Props
import Verif.Language.Props
import Verif.Language.Distill
import Verif.Scheme.Props
import Verif.Cursor.Props
import Verif.Wishes.Props
import Verif.Newlines.Props
import Verif.Layout.Props
import Verif.Unknown.Props
import Verif.Html.Props
import Verif.Html.ReadEdit
import Verif.Spanner.Props
import Verif.Heads.Props
import Verif.Heads.Index
import Verif.Tex.Props
import Verif.Tex.Newlines
import Verif.Markup.Props
import Verif.Lily.Props
import Verif.Build.NestUnique
import Verif.Signature.Examples
import Verif.Signature.Sub
import Verif.TimeCursor.Props
import Verif.Access.Props
import Verif.Access.Refs
import Verif.Length.Examples
import Verif.EditSel.Examples
import Verif.Rel2abs.Props
import Verif.TransposeDoc.Props
import Verif.Abs2rel.Props
import Verif.Abs2rel.SpecRange
import Verif.Abs2rel.SoundsRange
import Verif.Abs2rel.PropsRange
import Verif.TransposeBack.Props
import Verif.RhythmTime.Props
import Verif.Copy.Props
import Verif.Dump.Props
import Verif.TransposeKey.Statement
import Verif.RhythmEdits.Props
import Verif.RhythmEdits.Refine
import Verif.RhythmEdits.Order
import Verif.RhythmEdits.Keep
import Verif.RhythmEdits.Chain
import Verif.RangeWalk.Model
import Verif.RangeWalk.Spec
import Verif.RangeWalk.Lemmas
import Verif.RangeWalk.Lemmas2
import Verif.RangeWalk.Lemmas3
import Verif.RangeWalk.Props
import Verif.DumpTree.Model
import Verif.DumpTree.Spec
import Verif.DumpTree.Lemmas
import Verif.DumpTree.Lemmas2
import Verif.DumpTree.Props
import Verif.Files.Model
import Verif.Files.Spec
import Verif.Files.Timed
import Verif.Files.Lemmas
import Verif.Files.Props
import Verif.Files.Examples
import Verif.RoundTrip.Spec
import Verif.RoundTrip.Lemmas
import Verif.RoundTrip.Edit
import Verif.RoundTrip.Props
import Verif.PitchTime.Spec
import Verif.PitchTime.Mus
import Verif.PitchTime.Core
import Verif.PitchTime.Place
import Verif.PitchTime.Doc
import Verif.PitchTime.View
import Verif.PitchTime.Edits
import Verif.PitchTime.Trans
import Verif.PitchTime.Hole
import Verif.PitchTime.Net
import Verif.PitchTime.Run
import Verif.PitchTime.Start
import Verif.PitchTime.Ends
import Verif.PitchTime.Abs
import Verif.PitchTime.Props
import Verif.TransposeTwice.Spec
import Verif.TransposeTwice.Lemmas
import Verif.TransposeTwice.Walk
import Verif.TransposeTwice.Props
import Verif.TransposeAbs.Spec
import Verif.TransposeAbs.Lemmas
import Verif.TransposeAbs.Walk
import Verif.TransposeAbs.Doc
import Verif.TransposeAbs.Props
import Verif.TransposeTrip.Spec
import Verif.TransposeTrip.Lemmas
import Verif.TransposeTrip.Props
import Verif.TransposeRel.Spec
import Verif.TransposeRel.Lemmas
import Verif.TransposeRel.Props
import Verif.RhythmPitch.Spec
import Verif.RhythmPitch.Lemmas
import Verif.RhythmPitch.Walk
import Verif.RhythmPitch.Props
import Verif.RhythmParts.Lemmas
import Verif.RhythmParts.Props
import Verif.RhythmTwice.Lemmas
import Verif.RhythmTwice.Props
import Verif.RhythmParts.Transform
import Verif.RhythmTwice.Back
