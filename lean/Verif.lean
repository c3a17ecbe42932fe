import Verif.Model.Loop
import Verif.Model.Sym
import Verif.Spec.Trans
import Verif.Proofs.Loop
import Verif.Proofs.Reach
import Verif.Proofs.Cycle
import Verif.Props.Reach
import Verif.Model.Fmlae
import Verif.Model.Stab
import Verif.Spec.Conv
import Verif.Proofs.Weak
import Verif.Props.Conv
import Verif.Proofs.Fmlae
import Verif.Proofs.Stab
import Verif.Proofs.StabSound
import Verif.Spec.Prob
import Verif.Proofs.StabProb
import Verif.Props.Stab
import Verif.Props.StabProb
import Verif.Props.Fmlae
import Verif.Spec.Ring
import Verif.Proofs.Ring
import Verif.Proofs.Uniring
import Verif.Props.Uniring
import Verif.Model.Conflict
import Verif.Spec.Conflict
import Verif.Proofs.Conflict
import Verif.Props.Conflict
import Verif.Model.Uni
import Verif.Props.UniId
import Verif.Proofs.Ppg
import Verif.Props.Ppg
import Verif.Props.AdjList
import Verif.Model.Index
import Verif.Proofs.Index
import Verif.Proofs.Rep
import Verif.Props.Index
import Verif.Model.Canonical
import Verif.Spec.Rename
import Verif.Proofs.Canonical
import Verif.Props.Canonical
import Verif.Model.UniSynth
import Verif.Spec.UniSynth
import Verif.Proofs.UniSynth
import Verif.Props.UniSynth
import Verif.Model.Livelock
import Verif.Spec.Tile
import Verif.Proofs.Torus
import Verif.Proofs.Livelock
import Verif.Props.Livelock
import Verif.Model.Deadfree
import Verif.Spec.Quiet
import Verif.Proofs.Deadfree
import Verif.Props.Deadfree
import Verif.Model.B64
import Verif.Proofs.B64
import Verif.Props.B64
import Verif.Model.OneCycle
import Verif.Spec.CycleList
import Verif.Proofs.OneCycle
import Verif.Props.OneCycle
import Verif.Model.Search
import Verif.Proofs.Search
import Verif.Props.Search
import Verif.Spec.Sync
import Verif.Model.Sync
import Verif.Proofs.Sync
import Verif.Props.Sync
import Verif.Model.Rank
import Verif.Proofs.Rank
import Verif.Props.Rank
import Verif.Model.Interactive
import Verif.Proofs.Interactive
import Verif.Props.Interactive
import Verif.Model.IntFmla
import Verif.Proofs.IntFmla
import Verif.Props.IntFmla
import Verif.Model.Eval
import Verif.Spec.Eval
import Verif.Proofs.Eval
import Verif.Props.Eval
import Verif.Model.PFmla
import Verif.Spec.PFmla
import Verif.Proofs.PFmla
import Verif.Proofs.PFmlaGlu
import Verif.Proofs.PFmlaVbl
import Verif.Props.PFmla
import Verif.Model.Udp
import Verif.Spec.Udp
import Verif.Proofs.Udp
import Verif.Proofs.UdpNet
import Verif.Props.Udp
import Verif.Model.Classify
import Verif.Proofs.Classify
import Verif.Props.Classify
import Verif.Props.Coexist
import Verif.Props.Generate
import Verif.Props.GenSearch
import Verif.Props.Aperiodic
import Verif.Props.Graph
import Verif.Spec.Synth
import Verif.Model.Synth
import Verif.Proofs.Revise
import Verif.Proofs.Complete
import Verif.Proofs.SynthStab
import Verif.Proofs.SynthCert
import Verif.Proofs.SynthFind
import Verif.Props.Synth
import Verif.Spec.Pick
import Verif.Model.Pick
import Verif.Model.PickSyn
import Verif.Proofs.Pick
import Verif.Props.Pick
import Verif.Props.PickSyn
import Verif.Model.Cand
import Verif.Spec.Cand
import Verif.Proofs.Cand
import Verif.Props.Cand
import Verif.Model.Drive
import Verif.Proofs.Drive
import Verif.Proofs.DriveEnd
import Verif.Props.Drive
import Verif.Model.Mpi
import Verif.Proofs.Mpi
import Verif.Proofs.MpiEnd
import Verif.Props.Mpi
import Verif.Model.Grammar
import Verif.Spec.Grammar
import Verif.Proofs.Grammar
import Verif.Proofs.GrammarShape
import Verif.Proofs.GrammarRead
import Verif.Proofs.GrammarBack
import Verif.Proofs.GrammarTrip
import Verif.Proofs.GrammarTotal
import Verif.Props.Grammar
import Verif.Model.Action
import Verif.Spec.Action
import Verif.Proofs.Action
import Verif.Proofs.ActionSem
import Verif.Proofs.ActionMean
import Verif.Props.Action
import Verif.Model.ActRead
import Verif.Spec.ActRead
import Verif.Proofs.ActRead
import Verif.Props.ActRead
import Verif.Model.Legit
import Verif.Spec.Legit
import Verif.Proofs.Legit
import Verif.Proofs.LegitSem
import Verif.Props.Legit
import Verif.Model.File
import Verif.Spec.File
import Verif.Proofs.FileRead
import Verif.Proofs.FileAcc
import Verif.Proofs.FileSym
import Verif.Proofs.FileRefs
import Verif.Proofs.FileAct
import Verif.Proofs.FileJoin
import Verif.Proofs.FilePc
import Verif.Proofs.FileAll
import Verif.Props.File
import Verif.Model.ActXn
import Verif.Spec.ActXn
import Verif.Proofs.ActXn
import Verif.Props.ActXn
import Verif.Model.SysInit
import Verif.Proofs.SysInit
import Verif.Props.SysInit
import Verif.Model.NetBuild
import Verif.Proofs.NetBuild
import Verif.Props.NetBuild
import Verif.Model.RankActs
import Verif.Proofs.RankActs
import Verif.Props.RankActs
import Verif.Model.MinConf
import Verif.Spec.MinConf
import Verif.Proofs.MinConf
import Verif.Props.MinConf
import Verif.Model.TestTask
import Verif.Spec.TestTask
import Verif.Proofs.TestTask
import Verif.Proofs.TestEnd
import Verif.Props.TestTask
import Verif.Model.Verify
import Verif.Spec.Verify
import Verif.Proofs.Verify
import Verif.Props.Verify
import Verif.Spec.Promela
import Verif.Model.Promela
import Verif.Proofs.Promela
import Verif.Props.Promela
import Verif.Spec.Msat
import Verif.Model.Msat
import Verif.Proofs.Msat
import Verif.Props.Msat
import Verif.Spec.Pla
import Verif.Model.Pla
import Verif.Proofs.Pla
import Verif.Props.Pla
import Verif.Spec.Biring
import Verif.Model.Biring
import Verif.Proofs.Biring
import Verif.Props.Biring
import Verif.Model.BiSearch
import Verif.Proofs.BiSearch
import Verif.Props.BiSearch
import Verif.Model.BiFilter
import Verif.Props.BiFilter
import Verif.Model.Listing
import Verif.Props.Listing
import Verif.Model.UdpTab
import Verif.Spec.UdpTab
import Verif.Proofs.UdpTab
import Verif.Props.UdpTab
import Verif.Model.UdpAct
import Verif.Props.UdpAct
import Verif.Model.BiOutput
import Verif.Props.BiOutput
import Verif.Model.Fixup
import Verif.Props.Fixup
import Verif.Model.Inst
import Verif.Props.Inst
import Verif.Model.Params
import Verif.Props.Params
import Verif.Model.BiRead
import Verif.Props.BiRead
