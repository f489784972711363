import Verif.UnicodeSets.Props
import Verif.UnicodeSets.SeqProps
import Verif.Collation.EscapeProps
import Verif.Collation.SortKeyProps
import Verif.Collation.ItemiseProps
import Verif.Collation.DucetProps
import Verif.Collation.ParseProps
import Verif.Collation.TailorProps
import Verif.Xml.BuilderProps
import Verif.Xml.LoadProps
import Verif.Xml.Names
import Verif.Ldml.HashProps
import Verif.Ldml.DraftProps
import Verif.Ldml.PathText
import Verif.Ldml.NormUnpack
import Verif.Ldml.Import
import Verif.Ldml.Dtd
import Verif.Zones.GenerateProps
import Verif.Merge.Alts
import Verif.Merge.WithDrafts
import Verif.Merge.WithDraftsProps
import Verif.Merge.DraftWay
import Verif.Merge.DraftCases
import Verif.Merge.RestoreProps
import Verif.Merge.ThreeWay
import Verif.Merge.FlattenProps
import Verif.Keyboard.Modifiers
import Verif.Keyboard.MatchProps
import Verif.Keyboard.Heap
import Verif.Langtags.ListProps
import Verif.Langtags.Registry
import Verif.Langtags.Likely
import Verif.Langtags.Supplement
import Verif.Langtags.Written
import Verif.Sheet.Process
import Verif.Template.IterDict
import Verif.Template.Process
import Verif.Template.ProcessProps
import Verif.Template.Functions
import Verif.Iana.Registry
import Verif.Parents.Props
import Verif.Exemplars.TextProps
import Verif.Exemplars.GraphemeProps
import Verif.Exemplars.Ldml
import Verif.Collation.MinimiseProps
import Verif.Collation.IcuProps
import Verif.Collation.BeforeProps
import Verif.Collation.Expansion
import Verif.Collation.SimpleProps
import Verif.Collation.SimpleOrder
import Verif.Collation.SimpleWrite
import Verif.Ldml.AliasEnds
import Verif.Fonts.MatchProps
import Verif.AddFonts.Urls
import Verif.Files.Find
import Verif.Files.Pool
import Verif.Files.Parallel
import Verif.Files.Import
import Verif.Keymans.Props
import Verif.Keyboard.Kbdtest
import Verif.Ldml.FindProps
import Verif.Ldml.Autonames
import Verif.Coverage.Props
import Verif.Fixsldr.Props
import Verif.AddFonts.Css
import Verif.Files.Normal
import Verif.Break.Props
import Verif.Break.Text
import Verif.Keyboard.MergeRule
import Verif.Merge.ParentTable
import Verif.Comments.Props
import Verif.Collation.Pretty
import Verif.Files.Hack
import Verif.Collation.Float
import Verif.Xml.Parser
import Verif.Merge.Command
import Verif.Files.Hunspell
import Verif.Collation.Mixed
import Verif.Collation.Whole
import Verif.Sheet.Export
import Verif.Collation.Astray
import Verif.Merge.Options
import Verif.Merge.OptionsProps
import Verif.Files.FlattenRun
import Verif.Keyboard.ReorderProps
import Verif.AddFonts.Run
import Verif.Merge.Modes
import Verif.Merge.CommandDirs
import Verif.Sheet.Book
import Verif.Meaning
import Verif.Ldml.DraftPath
import Verif.Comments.Write
import Verif.Xml.LowNs
import Verif.Merge.OverlayFonts
import Verif.Ldml.Identity
import Verif.Merge.Unflatten
import Verif.UnicodeSets.Operators
import Verif.Ldml.SaveText
import Verif.Ldml.Flat
import Verif.Ldml.SaveDrafts
import Verif.Files.NormalAgain
import Verif.Ldml.Settle
import Verif.Files.NormalSettle
import Verif.Coverage.Read
import Verif.Merge.Chains
import Verif.Merge.Reported
import Verif.AllOfKind
import Verif.Collation.Old
import Verif.Keyboard.Line
import Verif.Langtags.Program
import Verif.Ldml.Beside
import Verif.Sheet.AnyRows
import Verif.Exemplars.Always
import Verif.UnicodeSets.Blanks
import Verif.Collation.DucetLong
import Verif.Collation.EscapeExact
import Verif.Xml.Mixed
import Verif.Keyboard.Omit
import Verif.Keyboard.NoBase
import Verif.Collation.Operators
import Verif.Collation.Ties
import Verif.Sheet.Beyond
import Verif.Iana.WholeTags
import Verif.Collation.Weightless
import Verif.Ldml.DtdMarks
import Verif.Exemplars.NoScript
import Verif.Exemplars.LostMarks
import Verif.Exemplars.BothSets
import Verif.Langtags.FormOrder
import Verif.Langtags.ExtraBare
import Verif.AddFonts.Searches
import Verif.AddFonts.Defaults
import Verif.Merge.AllInputs
import Verif.AddFonts.CssKinds
import Verif.Sheet.LongRuns
import Verif.UnicodeSets.Braces
import Verif.Langtags.Blank
import Verif.Ldml.DraftKinds
import Verif.Merge.AltKinds
import Verif.Merge.NewKinds
import Verif.Ldml.PathKinds
import Verif.Files.ImportKinds
import Verif.Collation.SimpleKinds
import Verif.Exemplars.Counts
import Verif.Merge.CopyComments
import Verif.Ldml.PrefixKinds
import Verif.Merge.CollationKinds
import Verif.Merge.LossKinds
import Verif.UnicodeSets.OperatorTable
import Verif.Files.Hg
import Verif.UnicodeSets.BackslashKinds
import Verif.Ldml.TwiceKinds
import Verif.Template.Stairs
import Verif.Xml.HistoryKinds
import Verif.Langtags.TableKinds
import Verif.Langtags.LikelyKinds
import Verif.Ldml.NormTexts
import Verif.Ldml.ImportExact
import Verif.Iana.FurtherLines
import Verif.Parents.Unlisted
import Verif.Zones.AnyFile
import Verif.Xml.Control
import Verif.Merge.NotesPlain
import Verif.Keyboard.CodeProps
import Verif.Keyboard.Alternatives
import Verif.Files.ImportRefs
import Verif.MeaningMore
import Verif.Parents.Gap
