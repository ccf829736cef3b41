import Verif.Props.Substring
import Verif.Props.MultipleStrings
import Verif.Props.Changesets
import Verif.Props.Serialize
import Verif.Props.Merge
import Verif.Props.Versions
import Verif.Props.Tokenizers
import Verif.Props.DB
import Verif.Props.Lines
import Verif.Props.Display
import Verif.Props.Manifest
import Verif.Props.Depth
import Verif.Props.Recursion
import Verif.Props.DiffExact
import Verif.Props.Minimal
import Verif.Props.Cost
import Verif.Props.Rename
import Verif.Props.Rich
import Verif.Props.Store
import Verif.Model.Files
import Verif.Proofs.CliDiff
import Verif.Props.CliDiff
import Verif.Props.Files
import Verif.Props.GitConsole
import Verif.Props.Shortest
import Verif.Spec.LineTight
import Verif.Proofs.LineTight
import Verif.Props.LineTight
import Verif.Spec.Spell
import Verif.Spec.MergeLocal
import Verif.Proofs.MergeLocal
import Verif.Proofs.MergeCut
import Verif.Props.MergeLocal
import Verif.Spec.Tiles
import Verif.Proofs.Tiles
import Verif.Props.Tiles
import Verif.Proofs.DeltaSize
import Verif.Props.DeltaSize
import Verif.Model.RevisionTree
import Verif.Proofs.RevisionTree
import Verif.Proofs.RevisionInsert
import Verif.Proofs.RevisionShape
import Verif.Proofs.RevisionState
import Verif.Proofs.RevisionBranch
import Verif.Props.RevisionTree
import Verif.Model.Interrupt
import Verif.Spec.Interrupt
import Verif.Proofs.Interrupt
import Verif.Proofs.InterruptAdd
import Verif.Proofs.InterruptRuns
import Verif.Props.Interrupt
import Verif.Spec.LineGroups
import Verif.Proofs.LineGroups
import Verif.Props.LineGroups
import Verif.Proofs.LineVersions
import Verif.Props.LineVersions
import Verif.Proofs.SAFindAll
import Verif.Props.FindAll
import Verif.Proofs.DiffQuality
import Verif.Props.DiffQuality
import Verif.Model.Dump
import Verif.Spec.Dump
import Verif.Proofs.Dump
import Verif.Proofs.DumpDepth
import Verif.Props.Dump
import Verif.Spec.Json
import Verif.Proofs.Json
import Verif.Props.Json
import Verif.Spec.Anchor
import Verif.Proofs.Anchor
import Verif.Proofs.AnchorMerge
import Verif.Proofs.Regions
import Verif.Props.Landmark
import Verif.Tests.Automaton
import Verif.Tests.Merge
import Verif.Tests.Readme
import Verif.Tests.Text
import Verif.Tests.Store
import Verif.Tests.Revision
import Verif.Spec.Stretch
import Verif.Proofs.Stretch
import Verif.Props.Stretch
import Verif.Spec.Isolate
import Verif.Proofs.Isolate
import Verif.Props.Isolate
import Verif.Model.DBTags
import Verif.Spec.DBTags
import Verif.Proofs.DBTags
import Verif.Props.DBTags
import Verif.Spec.Again
import Verif.Props.Again
import Verif.Model.Database
import Verif.Spec.Database
import Verif.Proofs.Database
import Verif.Props.Database
import Verif.Model.MergeCost
import Verif.Proofs.MergeCost
import Verif.Props.MergeCost
import Verif.Model.MultiCost
import Verif.Proofs.MultiCost
import Verif.Props.MultiCost
import Verif.Model.VersionsCost
import Verif.Proofs.VersionsCost
import Verif.Proofs.StoreCost
import Verif.Props.VersionsCost
import Verif.Model.LinesAny
import Verif.Props.LinesAny
import Verif.Tests.WitnessStore
import Verif.Tests.WitnessText
import Verif.Spec.Refused
import Verif.Proofs.Refused
import Verif.Props.Refused
import Verif.Spec.GrowingText
import Verif.Proofs.GrowStore
import Verif.Proofs.GrowLines
import Verif.Props.GrowLines
import Verif.Spec.Storage
import Verif.Proofs.GrowSize
import Verif.Props.GrowSize
import Verif.Model.Commands
import Verif.Props.Commands
import Verif.Model.BuildOptions
import Verif.Proofs.BuildOptions
import Verif.Props.BuildOptions
import Verif.Model.ChangesetParts
import Verif.Props.ChangesetParts
import Verif.Model.DotFile
import Verif.Spec.Dot
import Verif.Props.DotFile
import Verif.Props.DBGuarantees
import Verif.Model.VersionsLimit
import Verif.Spec.VersionsLimit
import Verif.Proofs.VersionsLimit
import Verif.Props.VersionsLimit
import Verif.Proofs.Utf8Core
import Verif.Model.ManifestNumbers
import Verif.Spec.ManifestNumbers
import Verif.Proofs.ManifestNumbers
import Verif.Props.ManifestNumbers
import Verif.Model.LazyDiff
import Verif.Proofs.LazyDiff
import Verif.Props.LazyDiff
import Verif.Model.LinesCost
import Verif.Spec.LinesCost
import Verif.Proofs.LinesCost
import Verif.Props.LinesCost
import Verif.Model.Keyed
import Verif.Spec.Keyed
import Verif.Proofs.Keyed
import Verif.Props.Keyed
import Verif.Model.SuffixTypes
import Verif.Spec.SuffixTypes
import Verif.Proofs.SuffixTypes
import Verif.Props.SuffixTypes
import Verif.Proofs.Unknown
import Verif.Props.Unknown
import Verif.Model.NoneTag
import Verif.Spec.NoneTag
import Verif.Proofs.NoneTag
import Verif.Props.NoneTag
import Verif.Model.TokenizerCost
import Verif.Spec.Counting
import Verif.Proofs.TokenizerCost
import Verif.Props.TokenizerCost
import Verif.Model.DBCost
import Verif.Proofs.DBCost
import Verif.Props.DBCost
import Verif.Props.PatchOther
import Verif.Proofs.ShortChangeset
import Verif.Props.ShortChangeset
import Verif.Proofs.OtherTokenizer
import Verif.Props.OtherTokenizer
import Verif.Model.InterruptDB
import Verif.Spec.InterruptDB
import Verif.Proofs.InterruptDB
import Verif.Proofs.InterruptDBAdd
import Verif.Props.InterruptDB
import Verif.Spec.DiffMirror
import Verif.Props.DiffMirror
import Verif.Props.ExitStatus
import Verif.Model.OwnTokenizer
import Verif.Spec.OwnTokenizer
import Verif.Props.OwnTokenizer
import Verif.Spec.TagNames
import Verif.Proofs.TagNames
import Verif.Props.TagNames
import Verif.Model.Difflib
import Verif.Proofs.Difflib
import Verif.Props.Difflib
import Verif.Proofs.SameTokenizer
import Verif.Props.WordClass
import Verif.Spec.BytesMerge
import Verif.Proofs.BytesMerge
import Verif.Props.BytesMerge
import Verif.Model.CommandsLimit
import Verif.Proofs.CommandsLimit
import Verif.Props.CommandsLimit
import Verif.Spec.ColouredFile
import Verif.Proofs.ColouredFile
import Verif.Props.ColouredFile
import Verif.Spec.Damage
import Verif.Proofs.Damage
import Verif.Props.Damage
import Verif.Proofs.DamageAdd
import Verif.Props.DamageAdd
import Verif.Proofs.TwoWay
import Verif.Props.TwoWay
import Verif.Props.DamageDB
import Verif.Props.JoinedWords
import Verif.Props.Rewritten
import Verif.Props.SameStretch
import Verif.Props.BothAppend
import Verif.Props.MixedStretch
import Verif.Props.Resolved
import Verif.Props.SameStart
import Verif.Props.Inserted
import Verif.Props.WholeChanges
import Verif.Props.ExactSides
import Verif.Props.Exchange
