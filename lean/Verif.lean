import Verif.Props.Utf8
import Verif.Props.BinEnc
import Verif.Props.ObjCore
import Verif.Model.Parser
import Verif.Model.Serializer
import Verif.Props.Parser
import Verif.Props.Serializer
import Verif.Props.BinJson
import Verif.Props.ArrayB
import Verif.Props.ObjB
import Verif.Props.ParserSound
import Verif.Props.ObjHeap
import Verif.Props.ValueOps
import Verif.Props.Ordered
import Verif.Props.OrderedSets
import Verif.Model.Path
import Verif.Props.Path
import Verif.Model.Equal
import Verif.Props.Equal
import Verif.Model.Comments
import Verif.Spec.Comments
import Verif.Props.Comments
import Verif.Model.NamedEnum
import Verif.Props.NamedEnum
import Verif.Model.Str
import Verif.Props.Str
import Verif.Model.Merge
import Verif.Props.Merge
import Verif.Model.Jwt
import Verif.Props.Jwt
import Verif.Model.Rpc
import Verif.Props.Rpc
import Verif.Props.RpcClient
import Verif.Model.Compress
import Verif.Lemmas.Compress
import Verif.Lemmas.CompressSync
import Verif.Props.Compress
import Verif.Model.ValidText
import Verif.Model.Validator
import Verif.Lemmas.Validator
import Verif.Lemmas.ValidatorTerm
import Verif.Props.ValidText
import Verif.Props.Validator
import Verif.Props.ValidObj
import Verif.Props.ValidList
import Verif.Props.ValidRules
import Verif.Props.ValidParams
import Verif.Model.Conv
import Verif.Lemmas.StrLen
import Verif.Props.Conv
import Verif.Props.Hash
import Verif.Model.Fp
import Verif.Lemmas.Fp
import Verif.Model.WriteDouble
import Verif.Lemmas.WriteDouble
import Verif.Props.WriteDouble
import Verif.Model.ReadDouble
import Verif.Lemmas.Near
import Verif.Lemmas.ReadDouble
import Verif.Lemmas.Canon
import Verif.Props.ReadDouble
import Verif.Model.Edit
import Verif.Spec.EditOps
import Verif.Spec.RefOps
import Verif.Props.Edit
import Verif.Lemmas.TokInj
import Verif.Spec.Tree
import Verif.Props.SerDouble
import Verif.Model.JwtSign
import Verif.Props.JwtSign
import Verif.Model.RpcServer
import Verif.Props.RpcServer
import Verif.Model.BinSession
import Verif.Props.BinSession
import Verif.Model.ComprReset
import Verif.Props.ComprReset
import Verif.Props.ComprLong
import Verif.Props.ComprTexts
import Verif.Model.RpcNotify
import Verif.Props.RpcNotify
import Verif.Model.Stream
import Verif.Props.Stream
import Verif.Model.Reader
import Verif.Lemmas.Reader
import Verif.Props.Reader
import Verif.Model.Binary
import Verif.Props.Binary
import Verif.Model.StrMem
import Verif.Props.StrMem
import Verif.Model.RpcSync
import Verif.Props.RpcSync
import Verif.Model.ParserMem
import Verif.Props.ParserMem
import Verif.Model.Share
import Verif.Props.Share
import Verif.Model.RpcLife
import Verif.Props.RpcLife
import Verif.Model.Iter
import Verif.Props.Iter
import Verif.Model.Native
import Verif.Props.Native
import Verif.Model.RpcMulti
import Verif.Props.RpcMulti
import Verif.Model.RpcWire
import Verif.Props.RpcWire
import Verif.Model.RpcError
import Verif.Props.RpcError
import Verif.Model.ObjOps
import Verif.Props.ObjOps
import Verif.Model.Handle
import Verif.Props.Handle
import Verif.Model.RpcBuiltin
import Verif.Props.RpcBuiltin
import Verif.Props.Base64Text
import Verif.Model.RecMerge
import Verif.Props.RecMerge
import Verif.Props.SerLine
import Verif.Props.DblTrips
import Verif.Props.JwtTime
import Verif.Model.Container
import Verif.Props.Container
import Verif.Model.RpcConn
import Verif.Props.RpcConn
import Verif.Model.ArrayWorld
import Verif.Props.ArrayWorld
import Verif.Model.ToText
import Verif.Props.ToText
import Verif.Model.JwtKeys
import Verif.Props.JwtKeys
import Verif.Props.BinNum
import Verif.Model.ParserCnt
import Verif.Props.ParserCnt
import Verif.Model.CtypeStd
import Verif.Props.CtypeStd
import Verif.Model.ParserDepth
import Verif.Props.ParserDepth
import Verif.Model.SerDepth
import Verif.Model.BinDepth
import Verif.Props.SerDepth
import Verif.Props.BinDepth
import Verif.Model.RpcPrepared
import Verif.Model.ArrayIter
import Verif.Props.RpcPrepared
import Verif.Props.ArrayIter
import Verif.Model.RefHeap
import Verif.Props.RefHeap
import Verif.Props.ValidPlaces
import Verif.Model.ExcText
import Verif.Props.ExcText
import Verif.Lemmas.ParserExt
import Verif.Lemmas.BinExt
import Verif.Props.Cut
import Verif.Props.TextEq
import Verif.Props.ComprCut
import Verif.Props.ComprCutDoc
import Verif.Props.Stable
import Verif.Props.NumText
import Verif.Props.Leaves
import Verif.Props.Source
import Verif.Props.BinAgain
import Verif.Props.TextBin
