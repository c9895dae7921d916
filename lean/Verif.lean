import Verif.Wic.LayoutProps
import Verif.Wic.FilemapProps
import Verif.Wic.ImageProps
import Verif.Wic.KsProps
import Verif.Meta.ListsProps
import Verif.Meta.MultiarchProps
import Verif.Meta.AptProps
import Verif.Meta.ImageTypesProps
import Verif.Meta.RootfsProps
import Verif.Meta.RealpathProps
import Verif.Meta.AccountsProps
import Verif.Scripts.SstateProps
import Verif.Bb.VersionProps
import Verif.Bb.DepsProps
import Verif.Bb.CowProps
import Verif.Bb.DataProps
import Verif.Bb.LockProps
import Verif.Bb.RqGraphProps
import Verif.Bb.RqSceneProps
import Verif.Bb.RqExecProps
import Verif.Bb.RqLiveProps
import Verif.Meta.FeaturesProps
import Verif.Meta.ProgressBarProps
import Verif.Bb.FetchProps
import Verif.Bb.UrlProps
import Verif.Bb.SigProps
import Verif.Bb.TaskHashProps
import Verif.Meta.SsNameProps
import Verif.Meta.SsPkgProps
import Verif.Meta.SsInstModel
import Verif.Meta.SsInstProps
import Verif.Meta.SsPruneModel
import Verif.Meta.SsPruneProps
import Verif.Bb.ExpandModel
import Verif.Bb.ExpandSpec
import Verif.Bb.ExpandLemmas
import Verif.Bb.ExpandLemmas2
import Verif.Bb.ExpandLemmas3
import Verif.Bb.ExpandProps
import Verif.Meta.DebSrcModel
import Verif.Meta.DebSrcSpec
import Verif.Meta.DebSrcProps
import Verif.Meta.DebCacheModel
import Verif.Meta.DebCacheProps
import Verif.Meta.DebRepoModel
import Verif.Meta.DebRepoProps
import Verif.Bb.ProvModel
import Verif.Bb.ProvSpec
import Verif.Bb.ProvProps
import Verif.Bb.ResolveModel
import Verif.Bb.ResolveLemmas
import Verif.Bb.ResolveAdd
import Verif.Bb.ResolveSpec
import Verif.Bb.ResolveKeep
import Verif.Bb.ResolveBlame
import Verif.Bb.ResolveEnd
import Verif.Bb.ResolveProps
import Verif.Meta.SchrootModel
import Verif.Meta.SchrootSpec
import Verif.Meta.SchrootProps
import Verif.Meta.SbuildConfModel
import Verif.Meta.SbuildConfSpec
import Verif.Meta.SbuildConfProps
import Verif.Meta.LocalAptModel
import Verif.Meta.LocalAptProps
import Verif.Bb.ConfModel
import Verif.Bb.ConfSpec
import Verif.Bb.ConfLemmas
import Verif.Bb.ConfProps
import Verif.Bb.BBModel
import Verif.Bb.BBSpec
import Verif.Bb.BBLemmas
import Verif.Bb.BBProps
import Verif.Bb.BBLines
import Verif.Bb.TasksModel
import Verif.Bb.TasksProps
import Verif.Bb.EvalModel
import Verif.Bb.EvalProps
import Verif.Bb.VirtModel
import Verif.Bb.VirtProps
import Verif.Bb.SaveModel
import Verif.Bb.SaveProps
import Verif.Bb.CacheModel
import Verif.Bb.CacheProps
import Verif.Meta.PatchProps
import Verif.Meta.PatchSelect
import Verif.Bb.EventProps
import Verif.Bb.NamesProps
import Verif.Bb.VariantProps
import Verif.Bb.PipeModel
import Verif.Bb.PipeLemmas
import Verif.Bb.PipeProps
import Verif.Meta.ChangelogModel
import Verif.Meta.ChangelogProps
import Verif.Meta.EventsModel
import Verif.Meta.EventsProps
import Verif.Meta.ContainerModel
import Verif.Meta.ContainerProps
import Verif.Meta.RootfsFilesModel
import Verif.Meta.RootfsFilesProps
import Verif.Meta.ExpandModel
import Verif.Meta.ExpandProps
import Verif.Meta.InstallerModel
import Verif.Meta.InstallerProps
import Verif.Bb.EmitModel
import Verif.Bb.EmitProps
import Verif.Bb.StampModel
import Verif.Bb.StampProps
import Verif.Bb.TaskRunModel
import Verif.Bb.TaskRunProps
import Verif.Bb.PrModel
import Verif.Bb.PrProps
import Verif.Bb.HashModel
import Verif.Bb.HashProps
import Verif.Bb.HashUserModel
import Verif.Bb.HashUserProps
import Verif.Bb.CollectModel
import Verif.Bb.CollectProps
import Verif.Bb.ChunkModel
import Verif.Bb.ChunkProps
import Verif.Bb.DiskMonModel
import Verif.Bb.DiskMonProps
import Verif.Bb.ChecksumModel
import Verif.Bb.ChecksumProps
import Verif.Wic.PrepModel
import Verif.Wic.PrepProps
import Verif.Meta.WksModel
import Verif.Meta.WksProps
import Verif.Wic.BootModel
import Verif.Wic.BootProps
import Verif.Bb.LayersModel
import Verif.Bb.LayersProps
import Verif.Bb.UnpackModel
import Verif.Bb.UnpackProps
import Verif.Bb.UnpackProps2
import Verif.Bb.UnpackProps3
import Verif.Meta.EpochModel
import Verif.Meta.EpochProps
import Verif.Meta.OuthashModel
import Verif.Meta.OuthashProps
import Verif.Meta.OuthashProps2
import Verif.Meta.CustomModel
import Verif.Meta.CustomProps
import Verif.Bb.GitModel
import Verif.Bb.GitProps
import Verif.Meta.SdkModel
import Verif.Meta.SdkProps
import Verif.Meta.OsReleaseModel
import Verif.Meta.OsReleaseProps
import Verif.Bb.ParserModel
import Verif.Bb.ParserProps
import Verif.Bb.DiffSigModel
import Verif.Bb.DiffSigProps
import Verif.Meta.KernelModel
import Verif.Meta.KernelProps
import Verif.Meta.HardCopyModel
import Verif.Meta.HardCopyProps
import Verif.Meta.CrossModel
import Verif.Meta.CrossProps
import Verif.Meta.DracutModel
import Verif.Meta.DracutProps
import Verif.Bb.ServerModel
import Verif.Bb.ServerProps
import Verif.Bb.ClientsModel
import Verif.Bb.ClientsProps
import Verif.Bb.XmlrpcModel
import Verif.Bb.XmlrpcProps
import Verif.Meta.ChrootModel
import Verif.Meta.ChrootProps
import Verif.Bb.HashClientModel
import Verif.Bb.HashClientProps
import Verif.Bb.UiHelperModel
import Verif.Bb.UiHelperProps
import Verif.Bb.UiQueueModel
import Verif.Bb.UiQueueProps
import Verif.Meta.EssentialModel
import Verif.Meta.EssentialProps
import Verif.Meta.TarImageModel
import Verif.Meta.TarImageProps
import Verif.Bb.ClientPoolModel
import Verif.Bb.ClientPoolProps
import Verif.Meta.DracutModModel
import Verif.Meta.DracutModProps
import Verif.Bb.MoveFileModel
import Verif.Bb.MoveFileProps
import Verif.Wic.RawCopyModel
import Verif.Wic.RawCopyProps
import Verif.Bb.EnvModel
import Verif.Bb.EnvProps
import Verif.Meta.HookModel
import Verif.Meta.HookProps
import Verif.Bb.GuardModel
import Verif.Bb.GuardProps
import Verif.Meta.AutoloadModel
import Verif.Meta.AutoloadProps
import Verif.Meta.ContainerImgModel
import Verif.Meta.ContainerImgProps
import Verif.Meta.SbomModel
import Verif.Meta.SbomProps
import Verif.Bb.SearchModel
import Verif.Bb.SearchProps
import Verif.Meta.ArchiveModel
import Verif.Meta.ArchiveProps
import Verif.Bb.RevsModel
import Verif.Bb.RevsProps
import Verif.Bb.AddrModel
import Verif.Bb.AddrProps
import Verif.Meta.TypesModel
import Verif.Meta.TypesProps
import Verif.Bb.RefVarsModel
import Verif.Bb.RefVarsProps
import Verif.Meta.OvaModel
import Verif.Meta.OvaProps
import Verif.Meta.StatsModel
import Verif.Meta.StatsProps
import Verif.Meta.TermModel
import Verif.Meta.TermProps
import Verif.Meta.LaunchModel
import Verif.Meta.LaunchProps
import Verif.Meta.OeUtilsModel
import Verif.Meta.OeUtilsProps
import Verif.Scripts.LockRunModel
import Verif.Scripts.LockRunProps
