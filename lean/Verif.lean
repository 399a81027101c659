import Verif.Prime
import Verif.Spec
import Verif.Instance
import Verif.Props.Scalars
import Verif.Props.Keys
import Verif.Props.Sign
import Verif.Props.Context
import Verif.Props.Batch
import Verif.Props.Vrf
import Verif.Props.VrfMulti
import Verif.Props.VrfBatch
import Verif.Props.Derive
import Verif.Props.Cert
import Verif.Props.Aead
import Verif.Props.MuSig
import Verif.Props.MuSigSign
import Verif.Props.MuSigKeys
import Verif.Model.MuSigSlice
import Verif.Spec.Limit
import Verif.Props.Limit
import Verif.Props.MuSigSlice
import Verif.Props.MuSigRun
import Verif.Props.MuSigNonce
import Verif.Props.Serde
import Verif.Props.Reach
import Verif.Props.Witness
import Verif.Props.Domain
import Verif.Props.Debug
import Verif.Props.Zk
import Verif.Props.Fork
import Verif.Props.MuSigLists
import Verif.Props.VrfWire
import Verif.Props.RomVrf
import Verif.Props.RomSign
import Verif.Props.BatchForge
import Verif.Props.RomBatch
import Verif.Props.RomVrfBatch
import Verif.Props.RomVrfs
import Verif.Props.Protocol
import Verif.Props.RomMuSig
import Verif.Props.RomExclusive
import Verif.Props.RomCollide
import Verif.Props.RomPrf
import Verif.Props.Errors
import Verif.Props.RomKey
import Verif.Props.RomOwner
import Verif.Props.RomWallet
import Verif.Props.RomMini
import Verif.Props.RomMiniEd
import Verif.Props.RomSimple
import Verif.Props.RomDh
import Verif.Spec.RomBatchKey
import Verif.Props.RomBatchKey
import Verif.Props.RomBatchKeyVrf
import Verif.Spec.RomVrfPrf
import Verif.Props.RomVrfPrf
import Verif.Props.RomVrfGuess
import Verif.Spec.RomFamily
import Verif.Props.RomFamily
import Verif.Spec.RomCosign
import Verif.Lemmas.RomLazy
import Verif.Lemmas.RomRescale
import Verif.Lemmas.RomCosignBase
import Verif.Lemmas.RomCosignCore
import Verif.Lemmas.RomCosignCrate
import Verif.Lemmas.RomCosignDraw
import Verif.Lemmas.RomCosignGame
import Verif.Lemmas.RomCosignHide
import Verif.Lemmas.RomCosignInv
import Verif.Lemmas.RomCosignPlay
import Verif.Lemmas.RomCosignReal
import Verif.Lemmas.RomCosignClaim
import Verif.Lemmas.RomCosignReveal
import Verif.Lemmas.RomCosignSim
import Verif.Lemmas.RomCosignSteps
import Verif.Lemmas.RomCosignView
import Verif.Lemmas.RomCosignWithin
import Verif.Props.RomCosign
import Verif.Props.RomUsers
import Verif.Spec.RomDual
import Verif.Lemmas.RomDualGame
import Verif.Lemmas.RomDualOwn
import Verif.Lemmas.RomDualServe
import Verif.Props.RomDual
import Verif.Spec.RomMixed
import Verif.Lemmas.RomMixed
import Verif.Props.RomMixed
import Verif.Spec.Randomness
import Verif.Props.Randomness
import Verif.Props.Panics
import Verif.Props.Compare
import Verif.Props.Oprf
import Verif.Props.VrfUnique
import Verif.Props.Preaudit
import Verif.Spec.Path
import Verif.Props.Path
import Verif.Lemmas.RomBack
import Verif.Props.PathLoop
import Verif.Props.PathPublic
import Verif.Props.PathEd
import Verif.Props.PathModes
import Verif.Props.MuSigOrder
import Verif.Props.PathModesLoop
import Verif.Props.PathModesKeys
