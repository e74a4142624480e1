import Verif.Props.DataAccess
import Verif.Props.Structure
import Verif.Props.Vector
import Verif.Props.RoundTrip
import Verif.Props.Multivector
import Verif.Props.RawData
import Verif.Props.Frame
import Verif.Props.Archive
import Verif.Props.ArchiveUse
import Verif.Props.Builder
import Verif.Props.BuilderHistory
import Verif.Props.BuilderCrash
import Verif.Props.EndToEnd
import Verif.Props.Tar
import Verif.Props.Inspector
import Verif.Props.Gen.Enumeration
import Verif.Props.Gen.Traversal
import Verif.Props.Gen.Tree
import Verif.Props.Gen.Merge
import Verif.Props.Gen.Resolve
import Verif.Props.Gen.Ast
import Verif.Props.Gen.Bound
import Verif.Props.Gen.Index
import Verif.Props.Gen.Literals
import Verif.Props.Gen.Schema
import Verif.Props.Gen.SchemaSamples
import Verif.Props.Gen.PythonSamples
import Verif.Props.Gen.DeclaredSamples
import Verif.Spec.Usage
import Verif.Lemmas.GenUsage
import Verif.Props.Gen.Usage
import Verif.Props.Gen.UsageSamples
import Verif.Spec.Alike
import Verif.Lemmas.Alike
import Verif.Lemmas.GenAlike
import Verif.Props.Gen.Evolution
import Verif.Props.Gen.EvolutionSamples
import Verif.Spec.Tokens
import Verif.Lemmas.GenTokens
import Verif.Lemmas.GenFormat
import Verif.Props.Gen.Format
import Verif.Native.Basic
import Verif.Model.Native.Cpp
import Verif.Model.Native.Rust
import Verif.Model.Native.Go
import Verif.Lemmas.Native
import Verif.Props.Native.Cpp
import Verif.Props.Native.Rust
import Verif.Props.Native.Go
import Verif.Props.Native.Agree
import Verif.Spec.Files
import Verif.Props.Files
import Verif.Model.Native.Assign
import Verif.Model.Native.CppStorage
import Verif.Model.Native.CppReader
import Verif.Lemmas.NativeFiles
import Verif.Props.Native.CppFiles
import Verif.Props.Native.CppVector
import Verif.Props.Native.CppReader
import Verif.Props.Native.Interop
import Verif.Model.Native.RustStorage
import Verif.Model.Native.RustReader
import Verif.Model.Native.CppArchive
import Verif.Props.Native.RustFiles
import Verif.Props.Native.RustReader
import Verif.Props.Native.RustMulti
import Verif.Props.Native.RustInterop
import Verif.Props.Native.RustArchive
import Verif.Props.Native.CppArchive
import Verif.Props.Native.OpenSame
import Verif.Model.Native.GoReader
import Verif.Props.Native.GoReader
import Verif.Props.Native.GoArchive
import Verif.Model.Gen.NativeClasses
import Verif.Spec.NativeClasses
import Verif.Lemmas.GenNative
import Verif.Props.Gen.NativeClasses
import Verif.Props.Gen.NativeEnums
import Verif.Props.Gen.NativeSamples
import Verif.Model.Native.Members
import Verif.Spec.Members
import Verif.Props.Native.Members
import Verif.Model.Gen.NativeConstants
import Verif.Spec.NativeConstants
import Verif.Props.Gen.NativeConstants
import Verif.Props.Gen.NativeConstantSamples
import Verif.Model.Native.CppTar
import Verif.Spec.TarFormat
import Verif.Props.Native.CppTar
import Verif.Props.Native.CppTarSamples
import Verif.Model.Native.CppDiff
import Verif.Spec.Diff
import Verif.Props.Native.CppDiff
import Verif.Props.Native.CppDiffSamples
import Verif.Props.Native.PythonOpens
import Verif.Props.Native.PythonOpensSamples
import Verif.Model.Gen.NativeArchives
import Verif.Spec.NativeArchives
import Verif.Props.Gen.NativeArchives
import Verif.Props.Gen.NativeReads
import Verif.Props.Gen.NativeArchivesSamples
import Verif.Model.Gen.NativeNames
import Verif.Spec.NativeNames
import Verif.Props.Gen.NativeNames
import Verif.Props.Gen.NativeNamesSamples
import Verif.Model.Gen.CppArchives
import Verif.Spec.CppArchives
import Verif.Props.Gen.CppArchives
import Verif.Props.Gen.CppArchivesSamples
import Verif.Spec.Syntax
import Verif.Lemmas.GenSyntax
import Verif.Props.Gen.Syntax
import Verif.Props.Gen.SyntaxComplete
import Verif.Props.Gen.SyntaxSamples
import Verif.Props.Gen.Documentation
import Verif.Props.Gen.DocumentationSamples
import Verif.Props.Gen.Accepted
import Verif.Model.Gen.Engine
import Verif.Spec.Engine
import Verif.Props.Gen.Engine
import Verif.Props.Gen.EngineSamples
import Verif.Props.Gen.ExplicitField
import Verif.Spec.Again
import Verif.Lemmas.GenAgainNodes
import Verif.Lemmas.GenAgainLike
import Verif.Lemmas.GenAgainMerge
import Verif.Lemmas.GenAgainRoot
import Verif.Lemmas.GenAgainTrack
import Verif.Lemmas.GenAgainIndex
import Verif.Lemmas.GenAgainStep
import Verif.Lemmas.GenAgainWhole
import Verif.Lemmas.GenAgainSame
import Verif.Props.Gen.Again
import Verif.Props.Gen.AgainSamples
import Verif.Lemmas.GenOrder
import Verif.Lemmas.GenDeps
import Verif.Lemmas.GenDeps2
import Verif.Lemmas.GenPeel
import Verif.Lemmas.GenStored
import Verif.Lemmas.GenStored2
import Verif.Lemmas.GenStored3
import Verif.Lemmas.GenStored4
import Verif.Lemmas.GenStored5
import Verif.Props.Gen.Stored
import Verif.Props.Gen.StoredSamples
import Verif.Model.Gen.Drawing
import Verif.Spec.Drawing
import Verif.Lemmas.GenDrawing
import Verif.Props.Gen.Drawing
import Verif.Props.Gen.DrawingSamples
import Verif.Model.Native.GoText
import Verif.Spec.Json
import Verif.Props.Native.GoText
import Verif.Props.Native.GoTextSamples
import Verif.Props.Native.GoTextSchema
import Verif.Model.Native.CppIterator
import Verif.Props.Native.CppIterator
import Verif.Model.Native.CppString
import Verif.Spec.StringTable
import Verif.Props.Native.StringTable
