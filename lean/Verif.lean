import Verif.Proof.RefineMain
import Verif.Proof.Locality
import Verif.Proof.Nodes
import Verif.Proof.Store
import Verif.Props.Fixture
import Verif.Props.Placement
import Verif.Props.Scope
import Verif.Props.Hook
import Verif.Props.Attr
import Verif.Props.FlavorPath
import Verif.Props.Toml
import Verif.Props.Root
import Verif.Props.Count
import Verif.Props.Capture
import Verif.Props.CountFn
import Verif.Props.Erase
import Verif.Props.Errors
import Verif.Props.Empty
import Verif.Props.Cache
import Verif.Props.Excerpt
import Verif.Props.ExcerptArgs
import Verif.Props.Helpers
import Verif.Props.Prec
import Verif.Props.MacroParse
import Verif.Props.Args
import Verif.Props.Exact
import Verif.Props.Presets
import Verif.Props.Skip
import Verif.Props.TomlDoc
import Verif.Props.TomlExact
import Verif.Props.Laws
import Verif.Props.ExcerptLaws
import Verif.Props.FlavorSpelling
import Verif.Props.FlavorNames
import Verif.Props.Watch
import Verif.Props.CacheOrigin
import Verif.Props.Second
import Verif.Props.Batch
import Verif.Props.Meaning
import Verif.Props.Spans
import Verif.Props.FirstError
import Verif.Props.ReturnType
import Verif.Props.Messages
import Verif.Props.Help
import Verif.Props.Entry
import Verif.Props.Metas
import Verif.Props.InertText
import Verif.Props.Sync
import Verif.Props.Books
import Verif.Props.Chain
import Verif.Props.ErrPlace
import Verif.Props.Features
import Verif.Props.Depends
import Verif.Props.Size
import Verif.Props.RootPlace
import Verif.Props.OptPlace
import Verif.Props.RunCode
import Verif.Props.RunHook
import Verif.Props.Observe
import Verif.Props.Run
import Verif.Props.Trace
import Verif.Props.Once
import Verif.Props.Stem
import Verif.Props.Mask
import Verif.Props.NewProject
import Verif.Model.Exports
import Verif.Spec.Names
import Verif.Proof.Names
import Verif.Props.Names
import Verif.Props.Recipes
import Verif.Props.Reader
import Verif.Props.OtherNames
import Verif.Spec.Wrap
import Verif.Spec.Compare
import Verif.Props.Wrap
import Verif.Props.Compare
import Verif.Props.CompareCount
import Verif.Props.CompareAttr
import Verif.Props.CompareNumbers
import Verif.Props.CompareLocal
import Verif.Conform.Check
