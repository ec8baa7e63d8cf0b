import Verif.Base
import Verif.Conformance.Alias
import Verif.Conformance.Attributes
import Verif.Conformance.Base
import Verif.Conformance.Basic
import Verif.Conformance.Cache
import Verif.Conformance.Common
import Verif.Conformance.Events
import Verif.Conformance.Fallback
import Verif.Conformance.Getattr
import Verif.Conformance.Lifecycle
import Verif.Conformance.Nodify
import Verif.Conformance.Order
import Verif.Conformance.Reference
import Verif.Conformance.Serializer
import Verif.Conformance.Testing
import Verif.Conformance.Utils
import Verif.Lemmas.Accept
import Verif.Lemmas.AliasView
import Verif.Lemmas.ApiGeneric
import Verif.Lemmas.Chain
import Verif.Lemmas.ChildInv
import Verif.Lemmas.Construct
import Verif.Lemmas.Copy
import Verif.Lemmas.CopyRef
import Verif.Lemmas.Decode
import Verif.Lemmas.DecodeRef
import Verif.Lemmas.DelOutcome
import Verif.Lemmas.Detach
import Verif.Lemmas.Elsewhere
import Verif.Lemmas.Encode
import Verif.Lemmas.Factory
import Verif.Lemmas.Fallback
import Verif.Lemmas.FixedNew
import Verif.Lemmas.FullMapping
import Verif.Lemmas.FullMappingCached
import Verif.Lemmas.FullMappingRun
import Verif.Lemmas.Generic
import Verif.Lemmas.Gone
import Verif.Lemmas.GoneFrame
import Verif.Lemmas.Groups
import Verif.Lemmas.Grow
import Verif.Lemmas.Heap
import Verif.Lemmas.Insert
import Verif.Lemmas.Issued
import Verif.Lemmas.Lay
import Verif.Lemmas.Location
import Verif.Lemmas.Log
import Verif.Lemmas.Lookup
import Verif.Lemmas.MapPrims
import Verif.Lemmas.MapRefine
import Verif.Lemmas.NewNode
import Verif.Lemmas.OMap
import Verif.Lemmas.OdOrder
import Verif.Lemmas.Odict
import Verif.Lemmas.PassThrough
import Verif.Lemmas.Placed
import Verif.Lemmas.Raises
import Verif.Lemmas.Read
import Verif.Lemmas.RefDetach
import Verif.Lemmas.RefInsert
import Verif.Lemmas.RefInv
import Verif.Lemmas.RefMapping
import Verif.Lemmas.RefMore
import Verif.Lemmas.RefUuid
import Verif.Lemmas.Reference
import Verif.Lemmas.RefuseRefine
import Verif.Lemmas.Remove
import Verif.Lemmas.Route
import Verif.Lemmas.Sep
import Verif.Lemmas.SepApi
import Verif.Lemmas.SepItems
import Verif.Lemmas.SetOutcome
import Verif.Lemmas.SetSteps
import Verif.Lemmas.Shape
import Verif.Lemmas.Shown
import Verif.Lemmas.Stay
import Verif.Lemmas.Tree
import Verif.Lemmas.Uncache
import Verif.Lemmas.UncacheApi
import Verif.Lemmas.UncacheItems
import Verif.Lemmas.UncachePipe
import Verif.Lemmas.UncacheRel
import Verif.Lemmas.UncacheSer
import Verif.Lemmas.Uuid
import Verif.Lemmas.Whose
import Verif.Lemmas.Write
import Verif.Lemmas.Written
import Verif.Model.Aliaser
import Verif.Model.Api
import Verif.Model.AttrAccess
import Verif.Model.Copy
import Verif.Model.Debug
import Verif.Model.Events
import Verif.Model.FullMapping
import Verif.Model.Getattr
import Verif.Model.Index
import Verif.Model.InstanceProperty
import Verif.Model.Items
import Verif.Model.Locking
import Verif.Model.Mapping
import Verif.Model.Registry
import Verif.Model.Relocate
import Verif.Model.Report
import Verif.Model.Repr
import Verif.Model.Serializer
import Verif.Model.Subscribers
import Verif.Model.TestTree
import Verif.Model.Tester
import Verif.Model.Update
import Verif.Model.Utils
import Verif.Odict
import Verif.Props.C01
import Verif.Props.C02
import Verif.Props.C03
import Verif.Props.C04
import Verif.Props.C05
import Verif.Props.C06
import Verif.Props.C07
import Verif.Props.C08
import Verif.Props.C08Factory
import Verif.Props.C09
import Verif.Props.C09Any
import Verif.Props.C100
import Verif.Props.C101
import Verif.Props.C102
import Verif.Props.C103
import Verif.Props.C104
import Verif.Props.C105
import Verif.Props.C106
import Verif.Props.C11
import Verif.Props.C12
import Verif.Props.C13
import Verif.Props.C14
import Verif.Props.C15
import Verif.Props.C15Cached
import Verif.Props.C16
import Verif.Props.C16Cached
import Verif.Props.C21
import Verif.Props.C25
import Verif.Props.C27
import Verif.Props.C28
import Verif.Props.C28Any
import Verif.Props.C29
import Verif.Props.C30
import Verif.Props.C31
import Verif.Props.C31Agrees
import Verif.Props.C32
import Verif.Props.C32Del
import Verif.Props.C34
import Verif.Props.C35
import Verif.Props.C37
import Verif.Props.C38
import Verif.Props.C39
import Verif.Props.C40
import Verif.Props.C41
import Verif.Props.C42
import Verif.Props.C43
import Verif.Props.C44Cached
import Verif.Props.C46
import Verif.Props.C46Cached
import Verif.Props.C47
import Verif.Props.C48
import Verif.Props.C49
import Verif.Props.C50
import Verif.Props.C52
import Verif.Props.C53
import Verif.Props.C54
import Verif.Props.C55
import Verif.Props.C56
import Verif.Props.C56Cached
import Verif.Props.C57
import Verif.Props.C58
import Verif.Props.C59
import Verif.Props.C60
import Verif.Props.C61
import Verif.Props.C62
import Verif.Props.C63
import Verif.Props.C64
import Verif.Props.C64Uuid
import Verif.Props.C65
import Verif.Props.C66
import Verif.Props.C67
import Verif.Props.C68
import Verif.Props.C69
import Verif.Props.C70
import Verif.Props.C71
import Verif.Props.C71Index
import Verif.Props.C72
import Verif.Props.C73
import Verif.Props.C74
import Verif.Props.C75
import Verif.Props.C76
import Verif.Props.C77
import Verif.Props.C78
import Verif.Props.C79
import Verif.Props.C80
import Verif.Props.C81
import Verif.Props.C82
import Verif.Props.C83
import Verif.Props.C84
import Verif.Props.C85
import Verif.Props.C85Alias
import Verif.Props.C86
import Verif.Props.C87
import Verif.Props.C87Ref
import Verif.Props.C88
import Verif.Props.C89
import Verif.Props.C90
import Verif.Props.C91
import Verif.Props.C92
import Verif.Props.C93
import Verif.Props.C93Ref
import Verif.Props.C94
import Verif.Props.C95
import Verif.Props.C96
import Verif.Props.C97
import Verif.Props.C97Any
import Verif.Props.C98
import Verif.Props.C99
import Verif.Sample
import Verif.Spec.Copy
import Verif.Spec.Dest
import Verif.Spec.Events
import Verif.Spec.Factory
import Verif.Spec.Fallback
import Verif.Spec.Json
import Verif.Spec.Mapping
import Verif.Spec.OMap
import Verif.Spec.Reference
import Verif.Spec.Refuse
import Verif.Spec.Sessions
import Verif.Spec.Shape
import Verif.Spec.Shown
import Verif.Spec.Subscribers
import Verif.Spec.Suppress
import Verif.Spec.Tree
import Verif.Spec.Uncached
import Verif.Spec.View
import Verif.World
