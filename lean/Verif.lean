import Verif.Model.Arith
import Verif.Model.Basic
import Verif.Model.Borrow
import Verif.Model.Constants
import Verif.Model.Cost
import Verif.Model.De
import Verif.Model.Debug
import Verif.Model.DebugAlt
import Verif.Model.Dict
import Verif.Model.Encodable
import Verif.Model.Encoder
import Verif.Model.Errors
import Verif.Model.Index
import Verif.Model.Iters
import Verif.Model.KeysDebug
import Verif.Model.Lifetimes
import Verif.Model.LookupCost
import Verif.Model.Macro
import Verif.Model.Mutable
import Verif.Model.Owned
import Verif.Model.Scope
import Verif.Model.Scoped
import Verif.Model.Ser
import Verif.Model.SharedKeys
import Verif.Model.State
import Verif.Model.Threads
import Verif.Model.Utf8
import Verif.Model.Value
import Verif.Model.Varint
import Verif.Model.WriteFleece
import Verif.Spec.Asks
import Verif.Spec.Build
import Verif.Spec.Bytes
import Verif.Spec.Calls
import Verif.Spec.Copy
import Verif.Spec.Cost
import Verif.Spec.Doc
import Verif.Spec.Doubtful
import Verif.Spec.Fault
import Verif.Spec.Fits
import Verif.Spec.Float
import Verif.Spec.Format
import Verif.Spec.Groups
import Verif.Spec.Iteration
import Verif.Spec.KeyOrder
import Verif.Spec.Layout
import Verif.Spec.Liberal
import Verif.Spec.Lifetimes
import Verif.Spec.Lines
import Verif.Spec.Literal
import Verif.Spec.Lookup
import Verif.Spec.Mutable
import Verif.Spec.Number
import Verif.Spec.Refuses
import Verif.Spec.Scalar
import Verif.Spec.Scope
import Verif.Spec.Serde
import Verif.Spec.Text
import Verif.Spec.Tiny
import Verif.Spec.Tree
import Verif.Proofs.Access
import Verif.Proofs.Address
import Verif.Proofs.Arith
import Verif.Proofs.Borrow
import Verif.Proofs.Broken
import Verif.Proofs.Bytes
import Verif.Proofs.Collect
import Verif.Proofs.Content
import Verif.Proofs.Copy
import Verif.Proofs.Cost
import Verif.Proofs.CostDoc
import Verif.Proofs.Cut
import Verif.Proofs.CutSim
import Verif.Proofs.De
import Verif.Proofs.DeFits
import Verif.Proofs.DeOk
import Verif.Proofs.DeSafe
import Verif.Proofs.DeTy
import Verif.Proofs.Debug
import Verif.Proofs.DebugAlt
import Verif.Proofs.DebugSafe
import Verif.Proofs.DebugText
import Verif.Proofs.Deep
import Verif.Proofs.Depth
import Verif.Proofs.Determ
import Verif.Proofs.Doubtful
import Verif.Proofs.EncBasic
import Verif.Proofs.EncClose
import Verif.Proofs.EncGrow
import Verif.Proofs.EncInv
import Verif.Proofs.EncRun
import Verif.Proofs.EncStep
import Verif.Proofs.Even
import Verif.Proofs.Fault
import Verif.Proofs.FitsDe
import Verif.Proofs.Float
import Verif.Proofs.Format
import Verif.Proofs.FormatWrite
import Verif.Proofs.Groups
import Verif.Proofs.Has
import Verif.Proofs.HasFits
import Verif.Proofs.Header
import Verif.Proofs.Holds
import Verif.Proofs.KeyOrder
import Verif.Proofs.LargeDoc
import Verif.Proofs.Liberal
import Verif.Proofs.LiberalFormat
import Verif.Proofs.LiberalInside
import Verif.Proofs.LiberalRead
import Verif.Proofs.Lifetimes
import Verif.Proofs.Lines
import Verif.Proofs.Load
import Verif.Proofs.Local
import Verif.Proofs.Lookup
import Verif.Proofs.LookupCost
import Verif.Proofs.LookupDoc
import Verif.Proofs.Lost
import Verif.Proofs.Macro
import Verif.Proofs.MutAnswer
import Verif.Proofs.MutFrom
import Verif.Proofs.MutMap
import Verif.Proofs.MutNamed
import Verif.Proofs.MutRel
import Verif.Proofs.NoPanic
import Verif.Proofs.Number
import Verif.Proofs.Profile
import Verif.Proofs.ReadBack
import Verif.Proofs.ReadDepth
import Verif.Proofs.ReadTotal
import Verif.Proofs.Reader
import Verif.Proofs.Refuses
import Verif.Proofs.Rep
import Verif.Proofs.RepRoot
import Verif.Proofs.Res
import Verif.Proofs.Scalar
import Verif.Proofs.ScalarWrite
import Verif.Proofs.Scoped
import Verif.Proofs.Ser
import Verif.Proofs.SerOps
import Verif.Proofs.Shared
import Verif.Proofs.Sim
import Verif.Proofs.SmallDoc
import Verif.Proofs.State
import Verif.Proofs.Text
import Verif.Proofs.Texts
import Verif.Proofs.Threads
import Verif.Proofs.Tiny
import Verif.Proofs.Total
import Verif.Proofs.Utf8
import Verif.Proofs.Varint
import Verif.Proofs.WriteFleece
import Verif.Proofs.WriteOps
import Verif.Props.C01
import Verif.Props.C02
import Verif.Props.C03
import Verif.Props.C04
import Verif.Props.C05
import Verif.Props.C06
import Verif.Props.C07
import Verif.Props.C08
import Verif.Props.C09
import Verif.Props.C10
import Verif.Props.C11
import Verif.Props.C12
import Verif.Props.C13
import Verif.Props.C14
import Verif.Props.C15
import Verif.Props.C16
import Verif.Props.C17
import Verif.Props.C18
import Verif.Props.C19
import Verif.Props.C19All
import Verif.Props.C19Bytes
import Verif.Props.C20
import Verif.Props.C20Large
import Verif.Props.C21
import Verif.Props.C22
import Verif.Props.C23
import Verif.Props.C24
import Verif.Props.C25
import Verif.Props.C26
import Verif.Props.C27
import Verif.Props.C28
import Verif.Props.C29
import Verif.Props.C30
import Verif.Props.C31
import Verif.Props.C32
import Verif.Props.C33
import Verif.Props.C34
import Verif.Props.C35
import Verif.Props.C36
import Verif.Props.C37
import Verif.Props.C38
import Verif.Props.C39
import Verif.Props.C40
import Verif.Props.C41
import Verif.Props.C42
import Verif.Props.C43
import Verif.Props.C44
import Verif.Props.C45
import Verif.Props.C46
import Verif.Props.C47
import Verif.Props.C48
import Verif.Props.C49
import Verif.Props.C50
import Verif.Props.C51
import Verif.Props.C52
import Verif.Props.C53
import Verif.Props.C54
import Verif.Props.C55
import Verif.Props.C56
import Verif.Props.C57
import Verif.Props.C58
import Verif.Props.C59
import Verif.Props.C60
import Verif.Props.C61
import Verif.Props.C62
import Verif.Props.C63
import Verif.Props.C64
import Verif.Props.C65
import Verif.Props.C66
import Verif.Props.C67
import Verif.Props.C68
import Verif.Props.C69
import Verif.Props.C70
import Verif.Props.C71
import Verif.Props.C72
import Verif.Props.C73
import Verif.Props.C74
import Verif.Props.C75
import Verif.Props.C76
import Verif.Props.C77
import Verif.Props.C77Large
import Verif.Props.C77Lookup
import Verif.Props.C78
import Verif.Props.C79
import Verif.Props.C80
import Verif.Props.C81
import Verif.Props.Large
import Verif.Props.LargeMore
import Verif.Conformance
