import Verif.Props.Io
import Verif.Props.Version
import Verif.Props.Math
import Verif.Props.Prefix
import Verif.Props.Pbo
import Verif.Props.Signing
import Verif.Props.Rapify
import Verif.Props.Lzo
import Verif.Props.P3d
import Verif.Props.Stringtable
import Verif.Props.SqfOpt
import Verif.Props.SqfComp
import Verif.Props.Sqfc
import Verif.Props.Preproc
import Verif.Props.PreprocScope
import Verif.Props.PreprocStop
import Verif.Props.Processed
import Verif.Props.Workspace
import Verif.Props.Lint
import Verif.Props.Executor
import Verif.Props.Launch
import Verif.Props.Unpack
import Verif.Props.CaseFix
import Verif.Props.SqfParse
import Verif.Props.SqfLex
import Verif.Props.ConfigParse
import Verif.Props.ConfigFile
import Verif.Props.ConfigParents
import Verif.Props.SqfCompare
import Verif.Props.SqfFormat
import Verif.Props.SqfSuggest
import Verif.Props.SqfVersion
import Verif.Props.SqfEvents
import Verif.Props.SqfReserved
import Verif.Props.SqfMarker
import Verif.Props.SqfNames
import Verif.Model.Tokenize
import Verif.Spec.Comments
import Verif.Spec.Spelling
import Verif.Lib.Tokenize
import Verif.Lib.TokenPlaces
import Verif.Lib.Spelling
import Verif.Props.Tokenize
import Verif.Lib.Encode
import Verif.Model.Release
import Verif.Spec.Release
import Verif.Lib.Release
import Verif.Lib.ReleaseSign
import Verif.Props.Release
import Verif.Spec.PreprocSubst
import Verif.Lib.PreprocSubst
import Verif.Lib.PreprocMeans
import Verif.Props.PreprocSubst
import Verif.Model.Launcher
import Verif.Spec.Launcher
import Verif.Lib.Preset
import Verif.Lib.Launcher
import Verif.Props.Launcher
import Verif.Model.Paa
import Verif.Spec.Paa
import Verif.Lib.Paa
import Verif.Props.Paa
import Verif.Model.Project
import Verif.Spec.Project
import Verif.Props.Project
import Verif.Model.Binarize
import Verif.Spec.Binarize
import Verif.Lib.Binarize
import Verif.Props.Binarize
import Verif.Model.StringtableXml
import Verif.Spec.StringtableXml
import Verif.Lib.StringtableXml
import Verif.Props.StringtableXml
import Verif.Model.Coverage
import Verif.Props.Coverage
import Verif.Model.Reporting
import Verif.Props.Reporting
import Verif.Model.Commands
import Verif.Props.Commands
import Verif.Model.Labels
import Verif.Props.Labels
import Verif.Model.Hooks
import Verif.Props.Hooks
import Verif.Model.Utils
import Verif.Props.Utils
import Verif.Model.SqfSmallLint
import Verif.Spec.SqfTypes
import Verif.Props.SqfTypeName
import Verif.Model.Pdrive
import Verif.Props.Pdrive
import Verif.Model.ProjectFile
import Verif.Props.ProjectFile
import Verif.Model.Hls
import Verif.Props.Hls
import Verif.Model.Hover
import Verif.Props.Hover
import Verif.Model.Messages
import Verif.Props.Messages
import Verif.Model.Photoshoot
import Verif.Props.Photoshoot
import Verif.Model.Links
import Verif.Lib.Links
import Verif.Props.Links
import Verif.Spec.PreprocTidy
import Verif.Lib.PreprocTidy
import Verif.Props.PreprocTidy
import Verif.Model.Similar
import Verif.Spec.Similar
import Verif.Props.Similar
import Verif.Spec.PreprocFrom
import Verif.Lib.PreprocFrom
import Verif.Model.PreprocReport
import Verif.Props.PreprocReport
import Verif.Model.ConfigNote
import Verif.Props.ConfigNote
import Verif.Model.Inspect
import Verif.Props.Inspect
import Verif.Model.Update
import Verif.Props.Update
import Verif.Spec.SqfFile
import Verif.Lib.SqfFile
import Verif.Lib.SqfFits
import Verif.Props.SqfFile
import Verif.Model.Rapifier
import Verif.Spec.Rapifier
import Verif.Lib.Rapifier
import Verif.Props.Rapifier
import Verif.Model.Sources
import Verif.Spec.Sources
import Verif.Lib.Sources
import Verif.Props.Sources
import Verif.Spec.PreprocBuiltin
import Verif.Lib.PreprocBuiltin
import Verif.Props.PreprocBuiltin
import Verif.Lib.PreprocAsk
import Verif.Model.SourcesPre
import Verif.Lib.SourcesPre
import Verif.Props.SourcesPre
import Verif.Model.Value
import Verif.Props.Value
import Verif.Props.Reproducible
import Verif.Model.Check
import Verif.Props.Check
import Verif.Props.ReleaseVerify
import Verif.Model.Run
import Verif.Props.Run
import Verif.Model.VersionCache
import Verif.Spec.VersionUse
import Verif.Props.VersionCache
import Verif.Model.WikiLinks
import Verif.Spec.WikiLinks
import Verif.Props.WikiLinks
import Verif.Spec.WikiCode
import Verif.Props.WikiCode
import Verif.Model.WikiFeature
import Verif.Spec.WikiFeature
import Verif.Props.WikiFeature
