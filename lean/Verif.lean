import Verif.Props.Chunker
import Verif.Props.Flags
import Verif.Props.Index
import Verif.Props.IndexSeek
import Verif.Props.IndexIncremental
import Verif.Props.ChunkId
import Verif.Props.Goodbye
import Verif.Props.SipHash
import Verif.Props.Buffer
import Verif.Props.Holes
import Verif.Props.ChunkFile
import Verif.Props.Store
import Verif.Props.StorePut
import Verif.Props.Install
import Verif.Props.Gc
import Verif.Props.Number
import Verif.Props.NameTable
import Verif.Props.Location
import Verif.Props.Origin
import Verif.Props.Match
import Verif.Props.Locator
import Verif.Props.Decoder
import Verif.Props.Archive
import Verif.Props.Truncated
import Verif.Props.Meta
import Verif.Props.Restore
import Verif.Model.RemoteQueue
import Verif.Spec.RemoteQueue
import Verif.Lemmas.RemoteQueue
import Verif.Props.RemoteQueue
import Verif.Model.Remote
import Verif.Spec.Remote
import Verif.Lemmas.Remote
import Verif.Lemmas.RemoteRun
import Verif.Lemmas.RemoteConn
import Verif.Lemmas.RemoteSend
import Verif.Lemmas.RemoteFile
import Verif.Lemmas.RemoteState
import Verif.Props.Remote
import Verif.Model.RemoteChunks
import Verif.Spec.RemoteChunks
import Verif.Props.RemoteChunks
import Verif.Model.Delete
import Verif.Spec.Delete
import Verif.Props.Delete
import Verif.Spec.DeleteNames
import Verif.Props.DeleteNames
import Verif.Model.Seed
import Verif.Spec.Seed
import Verif.Props.Seed
import Verif.Model.Cache
import Verif.Spec.Cache
import Verif.Props.Cache
import Verif.Model.SyncRead
import Verif.Spec.SyncRead
import Verif.Lemmas.SyncRead
import Verif.Lemmas.SyncInv
import Verif.Lemmas.SyncRun
import Verif.Props.SyncRead
import Verif.Props.SyncPrefetch
import Verif.Lemmas.Exist
import Verif.Model.Make
import Verif.Spec.Make
import Verif.Props.Make
import Verif.Props.MakeRead
import Verif.Props.MakeOk
import Verif.Model.Seek
import Verif.Spec.Seek
import Verif.Lemmas.SeekLayout
import Verif.Lemmas.SeekParse
import Verif.Lemmas.SeekPath
import Verif.Lemmas.SeekStack
import Verif.Lemmas.SeekBuf
import Verif.Lemmas.SeekInv
import Verif.Lemmas.SeekPlain
import Verif.Lemmas.SeekHunt
import Verif.Lemmas.SeekSteps
import Verif.Lemmas.SeekGo
import Verif.Lemmas.SeekReach
import Verif.Lemmas.SeekEnd
import Verif.Props.Seek
import Verif.Model.Resume
import Verif.Spec.Resume
import Verif.Lemmas.ResumeSim
import Verif.Lemmas.ResumeRun
import Verif.Lemmas.ResumeWalk
import Verif.Lemmas.ResumeSeek
import Verif.Lemmas.ResumeHist
import Verif.Lemmas.ResumeRange
import Verif.Props.Resume
import Verif.Props.ResumeFindings
import Verif.Model.CacheMake
import Verif.Spec.CacheMake
import Verif.Lemmas.OriginLoc
import Verif.Lemmas.CacheEnc
import Verif.Lemmas.CacheMake
import Verif.Lemmas.CacheDriver
import Verif.Lemmas.CacheStep
import Verif.Lemmas.CacheInv
import Verif.Lemmas.CacheSession
import Verif.Props.CacheMake
import Verif.Props.CacheMakeFindings
import Verif.Props.CacheMakeAgain
import Verif.Props.CacheMakeExamples
import Verif.Lemmas.ResumePlain
import Verif.Lemmas.LocUnique
import Verif.Props.CacheMakeHistory
import Verif.Props.EndToEnd
import Verif.Props.EndToEndExamples
import Verif.Model.Hashmap
import Verif.Model.HashmapOps
import Verif.Spec.Hashmap
import Verif.Lemmas.HashIndex
import Verif.Lemmas.HashTable
import Verif.Lemmas.HashPut
import Verif.Lemmas.HashRemove
import Verif.Lemmas.HashResize
import Verif.Lemmas.HashInv
import Verif.Lemmas.HashOps
import Verif.Props.Hashmap
import Verif.Model.BlockDevice
import Verif.Spec.BlockDevice
import Verif.Lemmas.BlockSource
import Verif.Lemmas.BlockLive
import Verif.Lemmas.BlockDevice
import Verif.Props.BlockDevice
import Verif.Props.BlockServe
import Verif.Props.BlockDeviceTop
import Verif.Model.Fuse
import Verif.Spec.Fuse
import Verif.Lemmas.FusePay
import Verif.Lemmas.FuseAt
import Verif.Lemmas.FuseTurn
import Verif.Lemmas.FuseShow
import Verif.Lemmas.FuseLoop
import Verif.Lemmas.FuseRead
import Verif.Lemmas.FuseList
import Verif.Lemmas.FuseServe
import Verif.Lemmas.FuseEnds
import Verif.Props.Fuse
import Verif.Lemmas.FuseStuck
import Verif.Model.Reflink
import Verif.Spec.Reflink
import Verif.Props.Reflink
import Verif.Model.FeatureNames
import Verif.Spec.FeatureNames
import Verif.Props.FeatureNames
import Verif.Spec.DeleteImmutable
import Verif.Props.DeleteImmutable
import Verif.Model.Digest
import Verif.Spec.Digest
import Verif.Lemmas.Digest
import Verif.Lemmas.DigestEnc
import Verif.Lemmas.DigestDec
import Verif.Lemmas.DigestMarks
import Verif.Lemmas.DigestPost
import Verif.Props.Digest
import Verif.Model.Hardlink
import Verif.Spec.Hardlink
import Verif.Props.Hardlink
import Verif.Model.Listing
import Verif.Spec.Listing
import Verif.Props.Listing
import Verif.Model.Http
import Verif.Spec.Http
import Verif.Lemmas.Http
import Verif.Props.Http
import Verif.Model.Compressor
import Verif.Spec.Compressor
import Verif.Lemmas.Compressor
import Verif.Lemmas.CompressorLoad
import Verif.Lemmas.CompressorEnc
import Verif.Props.Compressor
import Verif.Props.CompressorExample
import Verif.Model.RawImage
import Verif.Spec.RawImage
import Verif.Lemmas.RawImage
import Verif.Lemmas.RawSize
import Verif.Lemmas.RawLoop
import Verif.Props.RawImage
import Verif.Model.ChunkOptions
import Verif.Spec.ChunkOptions
import Verif.Props.ChunkOptions
import Verif.Model.TempName
import Verif.Props.TempName
import Verif.Spec.TempName
import Verif.Lemmas.DecoderSkip
import Verif.Props.DecoderSkip
import Verif.Model.ArchiveFile
import Verif.Spec.ArchiveFile
import Verif.Props.ArchiveFile
import Verif.Model.ReadLink
import Verif.Props.ReadLink
import Verif.Model.TmpDir
import Verif.Spec.TmpDir
import Verif.Props.TmpDir
import Verif.Model.RemotePoll
import Verif.Spec.RemotePoll
import Verif.Lemmas.RemoteHello
import Verif.Props.RemotePoll
import Verif.Lemmas.RemoteBye
import Verif.Lemmas.RemoteBuf
