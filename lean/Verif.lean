import Verif.Props.Version
import Verif.Props.Range
import Verif.Props.Requirement
import Verif.Props.Graph
import Verif.Props.Resolver
import Verif.Props.AStar
import Verif.Props.Locks
import Verif.Props.SolverCache
import Verif.Props.TwoLevel
import Verif.Props.RepoCache
import Verif.Props.FileCache
import Verif.Props.Payload
import Verif.Props.Base26
import Verif.Props.PackageOrder
import Verif.Props.Filter
import Verif.Props.RuleFilter
import Verif.Props.Rex
import Verif.Props.Shell
import Verif.Props.Environment
import Verif.Props.Suite
import Verif.Props.Config
import Verif.Props.Repository
import Verif.Props.Search
import Verif.Props.Lists
import Verif.Props.Util
import Verif.Props.Context
import Verif.Props.PackageFiles
import Verif.Props.Commands
import Verif.Props.FsRepository
import Verif.Props.DirRepository
import Verif.Props.Serialization
import Verif.Props.PackagePy
import Verif.Props.PackagePySave
import Verif.Props.BuildEnv
import Verif.Props.BuildRun
import Verif.Props.BuildManager
import Verif.Props.BuildCopy
import Verif.Props.BuildSystems
import Verif.Props.BuildCommand
import Verif.Props.BuildArchive
import Verif.Props.ReleaseCommand
import Verif.Props.ReleaseManager
import Verif.Props.ReleaseTold
import Verif.Props.Vcs
import Verif.Props.Depends
import Verif.Props.EnvCommand
import Verif.Props.TestCommand
import Verif.Props.Bundle
import Verif.Props.Diff
import Verif.Props.BindVersion
import Verif.Props.Bind
import Verif.Props.Pip
import Verif.Props.Scanner
import Verif.Props.SearchCommand
import Verif.Model.SolveApi
import Verif.Spec.SolveApi
import Verif.Props.SolveApi
import Verif.Props.SolveCommand
import Verif.Model.PackageQuery
import Verif.Spec.PackageQuery
import Verif.Props.PackageQuery
import Verif.Model.Tokenizer
import Verif.Spec.Tokenizer
import Verif.Props.Tokenizer
import Verif.Model.Attributes
import Verif.Spec.Attributes
import Verif.Props.Attributes
import Verif.Model.AStarQueue
import Verif.Model.SelfUpdate
import Verif.Spec.AStarQueue
import Verif.Spec.SelfUpdate
import Verif.Props.AStarQueue
import Verif.Props.SelfUpdate
import Verif.Model.Preheater
import Verif.Model.Tuner
import Verif.Spec.Preheater
import Verif.Spec.Tuner
import Verif.Props.Preheater
import Verif.Props.Tuner
import Verif.Model.Complete
import Verif.Model.Artifacts
import Verif.Model.Which
import Verif.Spec.Complete
import Verif.Spec.Artifacts
import Verif.Spec.Which
import Verif.Props.Complete
import Verif.Props.Artifacts
import Verif.Props.Which
import Verif.Model.ContextDiff
import Verif.Model.DependsApi
import Verif.Spec.ContextDiff
import Verif.Spec.DependsApi
import Verif.Props.ContextDiff
import Verif.Props.DependsApi
import Verif.Model.PipApi
import Verif.Spec.PipApi
import Verif.Props.PipApi
import Verif.Model.PkgCache
import Verif.Spec.PkgCache
import Verif.Props.PkgCache
import Verif.Model.View
import Verif.Spec.View
import Verif.Props.View
import Verif.Model.ContextCommand
import Verif.Spec.ContextCommand
import Verif.Props.ContextCommand
import Verif.Model.SuitesCommand
import Verif.Spec.SuitesCommand
import Verif.Props.SuitesCommand
import Verif.Model.Resources
import Verif.Spec.Resources
import Verif.Props.Resources
import Verif.Model.PyVersion
import Verif.Spec.PyVersion
import Verif.Props.PyVersion
import Verif.Model.Help
import Verif.Spec.Help
import Verif.Props.Help
import Verif.Model.Source
import Verif.Spec.Source
import Verif.Props.Source
import Verif.Model.VariantCache
import Verif.Spec.VariantCache
import Verif.Props.VariantCache
import Verif.Model.Monitor
import Verif.Spec.Monitor
import Verif.Props.Monitor
import Verif.Model.LevelStats
import Verif.Spec.LevelStats
import Verif.Props.LevelStats
import Verif.Model.Plugins
import Verif.Spec.Plugins
import Verif.Props.Plugins
import Verif.Model.PyRelease
import Verif.Spec.PyRelease
import Verif.Props.PyRelease
import Verif.Model.PyBuild
import Verif.Spec.PyBuild
import Verif.Props.PyBuild
import Verif.Model.PyPackage
import Verif.Spec.PyPackage
import Verif.Props.PyPackage
import Verif.Model.PluginsCommand
import Verif.Spec.PluginsCommand
import Verif.Props.PluginsCommand
import Verif.Model.PyBundle
import Verif.Spec.PyBundle
import Verif.Props.PyBundle
import Verif.Model.PyRepository
import Verif.Spec.PyRepository
import Verif.Props.PyRepository
import Verif.Model.PyFilter
import Verif.Spec.PyFilter
import Verif.Props.PyFilter
import Verif.Model.GuiReport
import Verif.Spec.GuiReport
import Verif.Props.GuiReport
import Verif.Model.MainArgs
import Verif.Spec.MainArgs
import Verif.Props.MainArgs
import Verif.Model.DevPackage
import Verif.Spec.DevPackage
import Verif.Props.DevPackage
import Verif.Model.PyComplete
import Verif.Spec.PyComplete
import Verif.Props.PyComplete
import Verif.Model.PySuite
import Verif.Spec.PySuite
import Verif.Props.PySuite
import Verif.Model.PyCache
import Verif.Spec.PyCache
import Verif.Props.PyCache
