import Verif.Policies.Props
import Verif.SavePolicy.Props
import Verif.Manager.Props
import Verif.Manager.AsyncProps
import Verif.NameFormat.Props
import Verif.Store.Props
import Verif.Store.CleanupProps
import Verif.Store.DeleteProps
import Verif.Store.History
import Verif.Deleter.Props
import Verif.Async.Props
import Verif.Async.CommitProps
import Verif.Futures.ChainedProps
import Verif.Futures.KVProps
import Verif.Futures.SignalsProps
import Verif.Memory.LimitsProps
import Verif.Memory.BatchesProps
import Verif.Memory.RegulatorProps
import Verif.Arrays.SlicesProps
import Verif.Arrays.FragmentsProps
import Verif.Arrays.ChunksProps
import Verif.Arrays.ChunkShapeProps
import Verif.Arrays.Sharding
import Verif.Arrays.ShardingProps
import Verif.Arrays.Replicas
import Verif.Arrays.ReplicasProps
import Verif.Trees.Tree
import Verif.Trees.Flat
import Verif.Trees.TreeLemmas
import Verif.Trees.FlatProps
import Verif.Trees.SerializeProps
import Verif.Trees.Diff
import Verif.Trees.DiffProps
import Verif.Trees.PartsOf
import Verif.Trees.PartsOfProps
import Verif.Trees.Trim
import Verif.Trees.TrimProps
import Verif.Trees.Merge
import Verif.Trees.MergeProps
import Verif.Trees.Transform
import Verif.Trees.TransformProps
import Verif.Iterator.Model
import Verif.Iterator.Props
import Verif.Metadata.Store
import Verif.Metadata.StoreProps
import Verif.Metadata.Step
import Verif.Metadata.StepProps
import Verif.Metadata.RichProps
import Verif.Metadata.TreeMetaProps
import Verif.Metadata.NestedProps
import Verif.Metadata.ShardingProps
import Verif.Handlers.TypeRegistryProps
import Verif.Handlers.CompositeProps
import Verif.Partial.Props
import Verif.Store.SnapshotProps
import Verif.Metadata.ArrayStoreProps
import Verif.Tiering.Props
import Verif.Tiering.JobProps
import Verif.Tiering.Capacity
import Verif.Tiering.AssetProps
import Verif.Tiering.DeleteProps
import Verif.Tiering.RoutingProps
import Verif.Tiering.PathProps
import Verif.Tiering.TableProps
import Verif.Tiering.ClientProps
import Verif.Emergency.WireProps
import Verif.Emergency.PeersProps
import Verif.Emergency.SlicesProps
import Verif.Emergency.MeshProps
import Verif.Emergency.BroadcastProps
import Verif.Emergency.ManagerProps
import Verif.Safetensors.RunsProps
import Verif.Safetensors.PlanProps
import Verif.Safetensors.LoadProps
import Verif.Safetensors.RatioProps
import Verif.V1.RegistryProps
import Verif.V1.LayoutProps
import Verif.V1.TrainingProps
import Verif.Surgery.FuseProps
import Verif.PyTree.SaveProps
import Verif.PyTree.TransformFindingProps
import Verif.Emergency.ReplicatorFindingProps
import Verif.Arrays.ZarrExamples
import Verif.Handlers.StandardExamples
import Verif.V1.ContextExamples
import Verif.Manager.InfosExamples
import Verif.Handlers.StringsProps
import Verif.Handlers.MsgpackProps
import Verif.Snapshots.Props
import Verif.Handlers.LeafRegistryProps
import Verif.Export.ValidateProps
import Verif.Export.ManagerProps
import Verif.Export.SignatureProps
import Verif.Export.ExportedMapProps
import Verif.V1.CreationProps
import Verif.Handlers.JsonProps
import Verif.Manager.MetricsProps
import Verif.Handlers.RandomKeyProps
import Verif.Emergency.HandoffProps
import Verif.Emergency.RanksProps
import Verif.Emergency.MarkersProps
import Verif.Handlers.PlacesProps
import Verif.Handlers.LeavesProps
import Verif.Async.RunnerProps
import Verif.Async.ResponseProps
import Verif.Path.HnsProps
import Verif.Multihost.TransportProps
import Verif.Multihost.DispatchProps
import Verif.V1.MultiSaveProps
import Verif.V1.KeysProps
import Verif.Partial.MultiProps
import Verif.Handlers.ArrayArgsProps
import Verif.Handlers.BatchesProps
import Verif.V1.MetadataApiProps
import Verif.Handlers.ArrayWritesProps
import Verif.Emergency.SingleReplicaProps
import Verif.Handlers.PathwaysProps
import Verif.Deleter.ParallelProps
import Verif.Futures.SyncValueProps
import Verif.Export.ObmProps
import Verif.Tiering.AuthProps
import Verif.Tiering.TransferProps
import Verif.Path.FormatProps
import Verif.Tiering.ConfigProps
import Verif.Export.ProcessorProps
import Verif.Export.DTensorProps
import Verif.Handlers.SnapshotProps
import Verif.Manager.ItemsProps
import Verif.Export.ConfigProps
import Verif.Store.ModesProps
import Verif.Handlers.TypeNamesProps
import Verif.Handlers.CompositeMapProps
import Verif.Emergency.ChunkDebugProps
import Verif.Emergency.PeerSavesProps
import Verif.Trees.NestingProps
import Verif.Metadata.ValueEqProps
import Verif.Trees.InferredProps
import Verif.Emergency.ServeProps
