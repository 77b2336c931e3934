import Verif.Bits.Get
import Verif.Bits.Lemmas
import Verif.Bits.Model
import Verif.Bits.Run
import Verif.Bits.Show
import Verif.Bits.Spec
import Verif.Bits.Store
import Verif.Bits.Use
import Verif.Bohe.FieldLemmas
import Verif.Bohe.Frame
import Verif.Bohe.Model
import Verif.Bohe.Spec
import Verif.Cpp.BitBucket
import Verif.Cpp.Canon
import Verif.Cpp.Codec
import Verif.Cpp.CodecFrame
import Verif.Cpp.CodecInv
import Verif.Cpp.CodecRoom
import Verif.Cpp.CodecStep
import Verif.Cpp.CodecWhole
import Verif.Cpp.CodecWire
import Verif.Cpp.Coder
import Verif.Cpp.Decode
import Verif.Cpp.Get
import Verif.Cpp.Huffman
import Verif.Cpp.Levels
import Verif.Cpp.Parse
import Verif.Cpp.ParseLemmas
import Verif.Cpp.Print
import Verif.Cpp.Run
import Verif.Cpp.Spdy3
import Verif.Cpp.Spec
import Verif.Cpp.Store
import Verif.Cpp.Tables
import Verif.Cpp.Text
import Verif.Cpp.Utils
import Verif.Cpp.WireSpec
import Verif.Delta1.Any
import Verif.Delta1.Codec
import Verif.Delta1.CodecLemmas
import Verif.Delta1.Cut
import Verif.Delta1.Decode
import Verif.Delta1.GroupStep
import Verif.Delta1.HuffLemmas
import Verif.Delta1.Huffman
import Verif.Delta1.LimitLemmas
import Verif.Delta1.LinkedList
import Verif.Delta1.MakeLemmas
import Verif.Delta1.SessionLemmas
import Verif.Delta1.Size
import Verif.Delta1.Storage
import Verif.Delta1.StoreLemmas
import Verif.Delta1.TotalLemmas
import Verif.Delta1.Wire
import Verif.Delta1.WireLemmas
import Verif.Delta2.Any
import Verif.Delta2.CellLemmas
import Verif.Delta2.Codec
import Verif.Delta2.CodecLemmas
import Verif.Delta2.CodecSets
import Verif.Delta2.Cut
import Verif.Delta2.CutSpec
import Verif.Delta2.FieldLemmas
import Verif.Delta2.Fields
import Verif.Delta2.Ids
import Verif.Delta2.Implicit
import Verif.Delta2.Left
import Verif.Delta2.Lru
import Verif.Delta2.LruLemmas
import Verif.Delta2.MakeLemmas
import Verif.Delta2.OwnGroup
import Verif.Delta2.RangeCost
import Verif.Delta2.Repeat
import Verif.Delta2.RepeatPath
import Verif.Delta2.SessionLemmas
import Verif.Delta2.Size
import Verif.Delta2.Spec
import Verif.Delta2.StorageLemmas
import Verif.Delta2.TableStep
import Verif.Delta2.ToggleLemmas
import Verif.Delta2.Toggles
import Verif.Delta2.Wire
import Verif.Delta2.WireLemmas
import Verif.Delta2Bohe.BodyLemmas
import Verif.Delta2Bohe.FindLemmas
import Verif.Delta2Bohe.GroupLemmas
import Verif.Delta2Bohe.HeardLemmas
import Verif.Delta2Bohe.HistLemmas
import Verif.Delta2Bohe.InStep
import Verif.Delta2Bohe.LruLemmas
import Verif.Delta2Bohe.MakeLemmas
import Verif.Delta2Bohe.Model
import Verif.Delta2Bohe.RepeatLemmas
import Verif.Delta2Bohe.SessionLemmas
import Verif.Delta2Bohe.Spec
import Verif.Delta2Bohe.StepLemmas
import Verif.Delta2Bohe.StoreLemmas
import Verif.Delta2Bohe.WireLemmas
import Verif.DeltaBohe.AdjustLemmas
import Verif.DeltaBohe.FamilyLemmas
import Verif.DeltaBohe.InitLemmas
import Verif.DeltaBohe.LimitLemmas
import Verif.DeltaBohe.MakeLemmas
import Verif.DeltaBohe.MessageLemmas
import Verif.DeltaBohe.Model
import Verif.DeltaBohe.ReadLemmas
import Verif.DeltaBohe.ReceiveLemmas
import Verif.DeltaBohe.SessionLemmas
import Verif.DeltaBohe.SimLemmas
import Verif.DeltaBohe.Spec
import Verif.DeltaBohe.StateLemmas
import Verif.DeltaBohe.StoreLemmas
import Verif.DeltaBohe.WireLemmas
import Verif.Fork.Lemmas
import Verif.Fork.Model
import Verif.HeaderDiff.Any
import Verif.HeaderDiff.Choice
import Verif.HeaderDiff.Cut
import Verif.HeaderDiff.Deflate
import Verif.HeaderDiff.Grow
import Verif.HeaderDiff.HuffLemmas
import Verif.HeaderDiff.Huffman
import Verif.HeaderDiff.IntLemmas
import Verif.HeaderDiff.Left
import Verif.HeaderDiff.Model
import Verif.HeaderDiff.Params
import Verif.HeaderDiff.Processor
import Verif.HeaderDiff.Repeat
import Verif.HeaderDiff.SessionLemmas
import Verif.HeaderDiff.Size
import Verif.HeaderDiff.Sync
import Verif.HeaderDiff.Tables
import Verif.HeaderDiff.Total
import Verif.Http2.Cost
import Verif.Http2.CostSpec
import Verif.Http2.Cut
import Verif.Http2.CutSpec
import Verif.Http2.Dec
import Verif.Http2.IntLemmas
import Verif.Http2.Inv
import Verif.Http2.Model
import Verif.Http2.More
import Verif.Http2.Passes
import Verif.Http2.Reach
import Verif.Http2.Reset
import Verif.Http2.Session
import Verif.Http2.Sim
import Verif.Http2.Spec
import Verif.Http2.Tester
import Verif.Huff.Canon
import Verif.Huff.Code
import Verif.Huff.DictOrder
import Verif.Huff.Exact
import Verif.Huff.Lookup
import Verif.Huff.Model
import Verif.Huff.Opt
import Verif.Huff.Shipped
import Verif.Huff.Spec
import Verif.Huff.Tables
import Verif.Huff.TreeLemmas
import Verif.Huff.TreeOpt
import Verif.Lib.Har
import Verif.Lib.Lemmas
import Verif.Lib.Model
import Verif.Lib.Proc
import Verif.Lib.Run
import Verif.Lib.Spec
import Verif.Lib.Tsv
import Verif.Props.Axioms
import Verif.Props.Bits
import Verif.Props.BitsShow
import Verif.Props.Bohe
import Verif.Props.Bytes
import Verif.Props.Cpp
import Verif.Props.CppCodec
import Verif.Props.CppHuffman
import Verif.Props.CppHuffmanShow
import Verif.Props.CppParse
import Verif.Props.CppUtils
import Verif.Props.Deflate
import Verif.Props.Delta1
import Verif.Props.Delta1Cut
import Verif.Props.Delta1Groups
import Verif.Props.Delta1Size
import Verif.Props.Delta2Bohe
import Verif.Props.Delta2Cut
import Verif.Props.Delta2Implicit
import Verif.Props.Delta2OwnGroup
import Verif.Props.Delta2Receiver
import Verif.Props.Delta2Repeat
import Verif.Props.Delta2Size
import Verif.Props.Delta2Table
import Verif.Props.DeltaAny
import Verif.Props.DeltaBohe
import Verif.Props.DeltaBoheRead
import Verif.Props.Fields
import Verif.Props.Fork
import Verif.Props.HeaderDiff
import Verif.Props.HeaderDiffCut
import Verif.Props.HeaderDiffReceiver
import Verif.Props.HeaderDiffRepeat
import Verif.Props.HeaderDiffSize
import Verif.Props.Http2
import Verif.Props.Http2Cost
import Verif.Props.Http2Cut
import Verif.Props.Http2Reset
import Verif.Props.Http2Tester
import Verif.Props.Huff
import Verif.Props.HuffLookup
import Verif.Props.HuffShow
import Verif.Props.Hyper
import Verif.Props.Lib
import Verif.Props.Lru
import Verif.Props.Session
import Verif.Props.Simple
import Verif.Props.Spdy3
import Verif.Props.Stats
import Verif.Props.Text
import Verif.Props.Wire
import Verif.Py
import Verif.PyLemmas
import Verif.Stats.WordFreak
import Verif.Text.DateLemmas
import Verif.Text.DateSpec
import Verif.Text.Gzip
import Verif.Text.Http1
import Verif.Text.Hyper
import Verif.Text.Lemmas
import Verif.Text.Misc
import Verif.Text.MiscLemmas
import Verif.Text.Model
import Verif.Text.ProcLemmas
import Verif.Text.Session
import Verif.Text.Seven
import Verif.Text.Simple
import Verif.Text.SimpleLemmas
import Verif.Text.SimpleProc
import Verif.Text.SimpleStep
import Verif.Text.Spec
import Verif.Zlib.Spec
import Verif.Zlib.Stored
