import Verif.Model.Types
import Verif.Model.Macro
import Verif.Model.Serde
import Verif.Model.Multiproofs
import Verif.Model.Default
import Verif.Model.Debug
import Verif.Model.Display
import Verif.Spec.Encoding
import Verif.Spec.Accept
import Verif.Spec.Size
import Verif.Spec.Stored
import Verif.Spec.Merkle
import Verif.Spec.Macro
import Verif.Spec.Branch
import Verif.Spec.Sha256
import Verif.Spec.Index
import Verif.Spec.Prover
import Verif.Spec.Parts
import Verif.Spec.PartTrees
import Verif.Proofs.DecodeSound
import Verif.Proofs.Facts
import Verif.Proofs.Accept
import Verif.Proofs.Crash
import Verif.Proofs.Size
import Verif.Proofs.Loose
import Verif.Proofs.Merkleize
import Verif.Proofs.Root
import Verif.Proofs.Parts
import Verif.Proofs.PartTrees
import Verif.Proofs.Binding
import Verif.Proofs.Stale
import Verif.Proofs.Stored
import Verif.Proofs.StoredTrees
import Verif.Proofs.Std
import Verif.Proofs.Equal
import Verif.Proofs.NoPanic
import Verif.Proofs.Verify
import Verif.Proofs.Multi
import Verif.Proofs.MultiVerify
import Verif.Proofs.MultiExact
import Verif.Proofs.Index
import Verif.Proofs.GenIndex
import Verif.Proofs.PathTree
import Verif.Proofs.TreeBuild
import Verif.Proofs.Prove
import Verif.Proofs.ProvePath
import Verif.Proofs.Answer
import Verif.Proofs.Answered
import Verif.Proofs.Compose
import Verif.Proofs.On
import Verif.Proofs.IndexStd
import Verif.Proofs.Builds
import Verif.Props.Default
import Verif.Props.Debug
import Verif.Props.Demo
import Verif.Props.Display
import Verif.Props.Encoding
import Verif.Props.Accept
import Verif.Props.Size
import Verif.Spec.SizeRange
import Verif.Proofs.SizeRange
import Verif.Props.SizeRange
import Verif.Spec.Wire
import Verif.Proofs.Wire
import Verif.Props.Wire
import Verif.Model.Compare
import Verif.Spec.Compare
import Verif.Proofs.Compare
import Verif.Props.Compare
import Verif.Spec.Reading
import Verif.Props.Reading
import Verif.Proofs.Consistent
import Verif.Props.Consistent
import Verif.Props.Stored
import Verif.Props.StoredProve
import Verif.Props.Transparent
import Verif.Props.Parts
import Verif.Props.Reads
import Verif.Props.Behaves
import Verif.Props.Writes
import Verif.Props.Hashes
import Verif.Props.Lengths
import Verif.Props.PartTrees
import Verif.Props.Types
import Verif.Props.BitSeq
import Verif.Props.Newtype
import Verif.Props.Memory
import Verif.Props.Merkle
import Verif.Props.Overflow
import Verif.Props.TreeDebug
import Verif.Props.Update
import Verif.Props.Verifies
import Verif.Props.Verify
import Verif.Props.Multi
import Verif.Props.GenIndex
import Verif.Props.Prove
import Verif.Props.ProveAt
import Verif.Spec.Summary
import Verif.Proofs.Summary
import Verif.Props.Summary
import Verif.Model.Cost
import Verif.Spec.Cost
import Verif.Proofs.Cost
import Verif.Props.Cost
import Verif.Props.DecodeCost
import Verif.Props.VerifyCost
import Verif.Props.EncodeCost
import Verif.Props.EncodeMemory
import Verif.Props.ProveCost
import Verif.Props.ProverState
import Verif.Props.PartsCost
import Verif.Props.Peak
import Verif.Props.Width
import Verif.Props.WidthCode
import Verif.Props.WidthProve
import Verif.Props.WidthRoot
import Verif.Props.Builds
import Verif.Props.Errors
import Verif.Props.Recursive
import Verif.Props.Macro
import Verif.Props.Serde
import Verif.Tests.RepoTests
import Verif.Tests.Vectors
