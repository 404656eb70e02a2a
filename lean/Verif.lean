import Verif.XRing.Props
import Verif.Conc.Lin
import Verif.XRing.ConcProps
import Verif.XMath.Props
import Verif.Go.Utf8Lemmas
import Verif.XString.PropsA
import Verif.XString.PropsB
import Verif.XString.PropsC
import Verif.XString.JoinerProps
import Verif.XError.Props
import Verif.XTask.RetryProps
import Verif.XBinary.Props
import Verif.XBinary.Errors
import Verif.XBytes.Props
import Verif.XBytes.Share
import Verif.XBytes.ShareProps
import Verif.XBinary.Pooled
import Verif.XBinary.PooledProps
import Verif.XIO.Props
import Verif.XIO.Chain
import Verif.XIO.ChainProps
import Verif.Conc.Prog
import Verif.XOnce.Props
import Verif.XBarrier.Props
import Verif.XBarrier.Ends
import Verif.XSync.SpinlockProps
import Verif.Conc.Fair
import Verif.XSync.SpinlockFair
import Verif.XSync.SpinlockFree
import Verif.XSync.SpinlockClientProps
import Verif.XTask.DoProps
import Verif.XTask.DoEnds
import Verif.XWorker.Props
import Verif.XWorker.Ends
import Verif.XMapReduce.Comp
import Verif.XMapReduce.CompLemmas
import Verif.XMapReduce.CtxComp
import Verif.XMapReduce.CtxProps
import Verif.XMapReduce.Cut
import Verif.XMapReduce.Order
import Verif.XMapReduce.Panic
import Verif.XMapReduce.PanicProps
import Verif.XMapReduce.Props
import Verif.XMapReduce.React
import Verif.XMapReduce.ReactLemmas
import Verif.XMapReduce.ReactProps
import Verif.XMapReduce.StreamProps
import Verif.XSync.ResManProps
import Verif.XSync.ResManPanicProps
import Verif.XSync.MapProps
import Verif.XSync.SharedProps
import Verif.XStream.Abandon
import Verif.XStream.Reject
import Verif.XString.Index
import Verif.XString.Unsafe
import Verif.XString.UnsafeProps
import Verif.XStream.Room
import Verif.XStream.Heap
import Verif.XSync.Footprint
import Verif.XSync.ResManSlow
import Verif.XSync.SharedSlow
import Verif.XStream.Panic
import Verif.XStream.PanicProps
import Verif.XStream.PanicTermProps
import Verif.Conc.NetDead
import Verif.XStream.PanicLeft
import Verif.Conc.Obs
import Verif.XSync.MapConc
import Verif.XSync.MapConcAbs
import Verif.XSync.MapConcSpec
import Verif.XSync.MapConcInv
import Verif.XSync.MapConcSim
import Verif.XSync.MapConcSteps
import Verif.XSync.MapConcSteps2
import Verif.XSync.MapConcProps
import Verif.XSync.SharedConcProps
import Verif.XSync.SharedConcLive
import Verif.XSync.MapConcLive
import Verif.XSync.MapConcNested
import Verif.Conc.Refine
import Verif.XSync.MapMem
import Verif.XSync.MapMemSim
import Verif.XSync.MapMemProps
import Verif.XSync.MapMemEnds
import Verif.XSync.MapClear
import Verif.XSync.MapConcClear
import Verif.XSync.SharedConcClear
import Verif.XSync.MapCostProps
import Verif.Conc.Stop
import Verif.XStream.Stop
import Verif.XStream.ShareProps
import Verif.XSync.ResManMem
import Verif.XSync.ResManMemProps
import Verif.XRing.RaceProps
import Verif.XRing.Ends
import Verif.XRing.Heap
import Verif.XSync.MapConcCalls
import Verif.Conc.Ends
import Verif.XSync.ResManNest
import Verif.XSync.ResManNestProps
import Verif.Conc.ClientEnds
import Verif.Conc.Marks
import Verif.Conc.ClientPart
import Verif.XSync.MapConcEnds
import Verif.XSync.SharedConcEnds
import Verif.XSync.ResManEnds
import Verif.XSync.ResManMemEnds
import Verif.XSync.MapWords
import Verif.XSync.MapWorlds
import Verif.XSync.MapWorldsInv
import Verif.XSync.MapWorldsRel
import Verif.XSync.MapWorldsStep
import Verif.XSync.MapWorldsGlue
import Verif.XSync.MapWordsProps
import Verif.XSync.MapWordsEnds
import Verif.XSync.SharedWords
import Verif.XSync.SharedWordsLemmas
import Verif.XSync.SharedWordsProps
import Verif.XSync.SharedWordsEnds
import Verif.Conc.Nested
import Verif.Conc.NestedEnds
import Verif.Conc.NestedRun
import Verif.XSync.MapNested
import Verif.XSync.MapNestedProps
import Verif.XSync.SharedNested
import Verif.XSync.SharedNestedProps
import Verif.Conc.Crash
import Verif.Conc.Must
import Verif.XSync.MapCrash
import Verif.XSync.MapCrashProps
import Verif.XSync.MapHash
import Verif.XSync.MapReads
import Verif.XSync.SharedCrash
import Verif.XSync.SharedCrashProps
import Verif.XSync.ResManLocked
import Verif.XWorker.Nest
import Verif.XWorker.DeferNest
import Verif.XWorker.Both
import Verif.XWorker.BothMade
import Verif.XWorker.BothJam
import Verif.XWorker.BothOld
import Verif.XWorker.BothPanic
import Verif.XWorker.BothInside
import Verif.XWorker.BothPanicMade
import Verif.XWorker.BothPanicJam
import Verif.XWorker.Made
import Verif.XError.Heap
import Verif.Conc.NestedCrash
import Verif.XSync.MapNestedCrash
import Verif.XSync.SharedNestedCrash
import Verif.XMapReduce.GenStop
import Verif.XMapReduce.Exit
import Verif.XMapReduce.Leave
import Verif.XSync.MapWordsNested
import Verif.XSync.MapWordsCrash
import Verif.XSync.SharedWordsNested
import Verif.XSync.SharedWordsCrash
import Verif.XSync.ResManNestFrom
import Verif.Conc.Adequate
import Verif.XSync.MapConcChoice
import Verif.XSync.ResManChoice
