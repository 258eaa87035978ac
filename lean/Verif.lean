import Verif.Props.Merge
import Verif.Props.Hash
import Verif.Props.Options
import Verif.Props.Termination
import Verif.Props.Queue
import Verif.Spec.Fires
import Verif.Proofs.EngineQueue
import Verif.Props.QueueEngine
import Verif.Props.Store
import Verif.Props.Context
import Verif.Props.Semantics
import Verif.Props.Ordered
import Verif.Props.Plan
import Verif.Props.Result
import Verif.Props.Denormalize
import Verif.Props.Denormalize2
import Verif.Props.ValidateGraph
import Verif.Props.OptionTypes
import Verif.Props.Validate2
import Verif.Props.Validate3
import Verif.Props.Accepted
import Verif.Props.ReadGraphql3
import Verif.Props.ReadGraphql4
import Verif.Props.Edn
import Verif.Props.EdnText
import Verif.Props.EdnStr
import Verif.Props.EdnLast
import Verif.Props.EdnSym
import Verif.Props.Grow
import Verif.Props.Company
import Verif.Props.QueryObjects
import Verif.Props.NestedIndex
import Verif.Props.NestedRun
import Verif.Props.Tight
import Verif.Spec.QueryText
import Verif.Props.QueryText
import Verif.Props.Simple
import Verif.Props.Protobuf
import Verif.Props.ExportGraphql
import Verif.Props.Expr
import Verif.Props.ExprTypes
import Verif.Props.ExprTyped
import Verif.Props.Kinds
import Verif.Props.ExprReqs
import Verif.Props.ExprReqs2
import Verif.Props.Sources
import Verif.Model.Transform
import Verif.Model.Telemetry
import Verif.Proofs.Sim
import Verif.Spec.Transform
import Verif.Spec.Telemetry
import Verif.Props.Transform
import Verif.Props.Telemetry
import Verif.Props.TelemetryExample
import Verif.Model.Introspection
import Verif.Spec.Introspection
import Verif.Props.IntrospectTypes
import Verif.Props.IntrospectSchema
import Verif.Props.IntrospectGraph
import Verif.Props.IntrospectResult
import Verif.Props.IntrospectExample
import Verif.Spec.MetaSchema
import Verif.Props.MetaSchema
import Verif.Props.MetaSchemaExample
import Verif.Model.Endpoint
import Verif.Spec.Endpoint
import Verif.Props.Endpoint
import Verif.Props.EndpointData
import Verif.Props.EndpointIntro
import Verif.Props.EndpointExample
import Verif.Model.Gather
import Verif.Props.Gather
import Verif.Model.Builder
import Verif.Spec.Builder
import Verif.Props.Builder
import Verif.Model.Console
import Verif.Spec.Console
import Verif.Props.Console
import Verif.Proofs.Stable
import Verif.Proofs.Failures
import Verif.Proofs.Lag
import Verif.Props.Failures
import Verif.Model.Executors
import Verif.Model.Gather
import Verif.Proofs.Account
import Verif.Props.Cancel
import Verif.Model.Kinko
import Verif.Spec.Kinko
import Verif.Proofs.Kinko
import Verif.Props.Kinko
import Verif.Model.Db
import Verif.Spec.Db
import Verif.Props.Db
import Verif.Model.SubExpr
import Verif.Spec.SubExpr
import Verif.Proofs.SubExpr
import Verif.Proofs.SubExprTree
import Verif.Proofs.SubExprReqs
import Verif.Proofs.SubExprSource
import Verif.Proofs.SubExprRun
import Verif.Props.SubExpr
import Verif.Props.SubExprExample
import Verif.Props.Registry
import Verif.Spec.ExprValid
import Verif.Proofs.ExprValid
import Verif.Props.ExprValid
import Verif.Props.ExprValidExample
import Verif.Props.Findings
import Verif.Model.Define
import Verif.Spec.Define
import Verif.Proofs.Define
import Verif.Props.Define
import Verif.Props.Define2
import Verif.Props.Define3
import Verif.Spec.ExprPaths
import Verif.Proofs.ExprPaths
import Verif.Props.ExprPaths
import Verif.Props.DefineExample
import Verif.Props.SubExprDeclared
import Verif.Props.Latency
import Verif.Props.GatherCancel
import Verif.Props.Notation
import Verif.Props.RoundTrip
import Verif.Props.Types
import Verif.Props.Parts
