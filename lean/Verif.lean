import Verif.Py.Lemmas
import Verif.Py.Str
import Verif.Perm.Props
import Verif.Perm.CyclesArg
import Verif.Perm.Props2
import Verif.Perm.Props3
import Verif.Perm.Props4
import Verif.A.Binary
import Verif.A.Logic
import Verif.A.Zip
import Verif.A.Primes
import Verif.A.Det
import Verif.Binv.Props
import Verif.Binv.Props2
import Verif.Binv.Props3
import Verif.SetPart.Props
import Verif.SetPart.Lattice
import Verif.SetPart.Props2
import Verif.SetPart.Improved
import Verif.SetPart.Props3
import Verif.SetPart.Intval
import Verif.SetPart.Labels
import Verif.SetPart.History
import Verif.SetPart.Props4
import Verif.SetPart.Props5
import Verif.Perm.CyclePartition
import Verif.Perm.CyclePartition2
import Verif.Perm.Length
import Verif.SetPartComp.Props
import Verif.SigPerm.Props2
import Verif.SigPerm.Props3
import Verif.SigPerm.Semidirect
import Verif.SigPerm.PairBound
import Verif.SigPerm.Sign
import Verif.Walsh.Linear2
import Verif.Walsh.Props1
import Verif.Walsh.Props3
import Verif.Boolf.Model
import Verif.Boolf.Table
import Verif.Boolf.Order
import Verif.Boolf.Core
import Verif.Boolf.Ctor
import Verif.Boolf.Canon
import Verif.Boolf.Model2
import Verif.Boolf.Twin
import Verif.Boolf.Reach
import Verif.Boolf.Inflated
import Verif.Boolf.Props1
import Verif.Boolf.Props2
import Verif.Boolf.Props3
import Verif.Boolf.Props4
import Verif.Boolf.Props5
import Verif.Boolf.Walsh
import Verif.Boolf.Props6
import Verif.Boolf.Model3
import Verif.Boolf.Props7
import Verif.Boolf.Props8
import Verif.Boolf.Props9
import Verif.Boolf.Model4
import Verif.Boolf.Props10
import Verif.Boolf.Props11
import Verif.Boolf.Model5
import Verif.Boolf.Props12
import Verif.Boolf.Props13
import Verif.Boolf.Props14
import Verif.Boolf.Model6
import Verif.Boolf.Props15
import Verif.Boolf.Props16
import Verif.Boolf.Props17
import Verif.Boolf.Props18
import Verif.Boolf.Props19
import Verif.Boolf.Props20
import Verif.Boolf.Props21
import Verif.Boolf.Props22
import Verif.Boolf.Props23
import Verif.Boolf.Props24
import Verif.Boolf.Props25
import Verif.Boolf.Model7
import Verif.Boolf.Props26
import Verif.Boolf.Props27
import Verif.Boolf.Model8
import Verif.Boolf.Props28
import Verif.Boolf.Props29
import Verif.Boolf.Props30
import Verif.Boolf.Model9
import Verif.Boolf.Props31
import Verif.Boolf.Props32
import Verif.Boolf.Props33
import Verif.Boolf.Props34
import Verif.Boolf.Model10
import Verif.Boolf.Props35
import Verif.Boolf.Props36
import Verif.Boolf.Props37
import Verif.Boolf.Props38
import Verif.Boolf.Props39
import Verif.Boolf.Props40
import Verif.Boolf.Props41
import Verif.Boolf.Model11
import Verif.Boolf.Props42
import Verif.Boolf.Props43
import Verif.Boolf.Props44
import Verif.Boolf.Props45
import Verif.Boolf.Props46
import Verif.Boolf.Props47
import Verif.Boolf.Props48
import Verif.Boolf.Props49
import Verif.Boolf.Props50
import Verif.Boolf.Props51
import Verif.Boolf.Model12
import Verif.Boolf.Props52
import Verif.Boolf.Model13
import Verif.Boolf.Props53
import Verif.Boolf.Model14
import Verif.Boolf.Props54
import Verif.Boolf.Props55
import Verif.Boolf.Props56
import Verif.Boolf.Model15
import Verif.Boolf.Props57
import Verif.Boolf.Props58
import Verif.A.Sort
import Verif.A.Hasse
import Verif.A.Combi
import Verif.A.Combi2
import Verif.A.Nested
import Verif.A.Ternary
import Verif.Boolf.Model16
import Verif.Boolf.Props59
import Verif.Boolf.Props60
import Verif.Boolf.Props61
import Verif.Boolf.Props62
import Verif.Boolf.Props63
import Verif.Boolf.Props64
import Verif.Boolf.Props65
import Verif.Boolf.Model17
import Verif.Boolf.Props66
import Verif.Boolf.Props67
import Verif.Boolf.Props68
import Verif.Boolf.Props69
import Verif.Boolf.Props70
import Verif.Boolf.Linear
import Verif.SigPerm.Schoute
import Verif.SigPerm.FromSchoute
import Verif.Boolf.Model18
import Verif.Boolf.Props71
import Verif.Boolf.Model19
import Verif.Boolf.Props72
import Verif.Boolf.Model20
import Verif.Boolf.Props73
import Verif.Boolf.Model21
import Verif.Boolf.Props74
import Verif.Boolf.Model22
import Verif.Boolf.Props75
import Verif.Boolf.Model23
import Verif.Boolf.Props76
import Verif.Boolf.Props77
import Verif.Boolf.Model24
import Verif.Boolf.Props78
import Verif.Boolf.Props79
import Verif.SetPart.Model2
import Verif.SetPart.Props6
import Verif.Perm.Slice
import Verif.Perm.SliceProps
import Verif.Boolf.Model25
import Verif.Boolf.Props80
import Verif.Boolf.Model26
import Verif.Boolf.Props81
import Verif.Boolf.Model27
import Verif.Boolf.Props82
import Verif.A.Logic2
import Verif.A.Helpers
import Verif.SetPart.Str
import Verif.A.Signs
import Verif.SetPartComp.Str
import Verif.Walsh.Props4
import Verif.SetPart.Props7
import Verif.SetPart.Rank
import Verif.Boolf.Model28
import Verif.Boolf.Props83
import Verif.Boolf.Props84
import Verif.Walsh.Props5
import Verif.A.Svg
import Verif.A.SvgGeo
import Verif.A.SvgTrace
import Verif.A.SvgLoop
import Verif.A.SvgProps
import Verif.Boolf.Props85
import Verif.Boolf.Model29
import Verif.Boolf.Props86
import Verif.Boolf.Props87
import Verif.Boolf.Props88
import Verif.Boolf.Model30
import Verif.Boolf.Props89
import Verif.Boolf.Model31
import Verif.Boolf.Props90
import Verif.Boolf.Model32
import Verif.Boolf.Props91
import Verif.Boolf.Model33
import Verif.Boolf.Props92
import Verif.Py.Double
import Verif.A.Log
import Verif.A.LogBounds
import Verif.A.LogProps
import Verif.Walsh.Model2
import Verif.Walsh.Props6
import Verif.Walsh.Props7
import Verif.Walsh.Props8
import Verif.Perm.Order64
import Verif.Perm.CycleType
import Verif.Perm.Reflection
import Verif.Perm.OrderLaws
import Verif.Perm.RankSymmetry
import Verif.Perm.RankBound
import Verif.Boolf.Model34
import Verif.Boolf.Props93
import Verif.Boolf.Props94
import Verif.Boolf.Props95
import Verif.Boolf.Props96
import Verif.Boolf.Props97
import Verif.Boolf.Props98
import Verif.Boolf.Props99
import Verif.Boolf.Props100
import Verif.Boolf.Props101
import Verif.Boolf.Props102
import Verif.Boolf.Props103
import Verif.Boolf.Props104
import Verif.Boolf.Props105
import Verif.Boolf.Props106
import Verif.Boolf.Props107
import Verif.Boolf.Props108
import Verif.Boolf.Props109
import Verif.Boolf.Props110
import Verif.Boolf.Props111
import Verif.Boolf.Props112
import Verif.Scripts.Cayley
import Verif.Scripts.CayleyProps
import Verif.Scripts.CayleyProps2
import Verif.Scripts.CayleyProps3
import Verif.Scripts.CayleyProps4
import Verif.Tests.Binv
import Verif.Tests.Boolf
import Verif.Tests.BoolfClasses
import Verif.Tests.BoolfMethods
import Verif.Tests.Perm
import Verif.Tests.SetPart
import Verif.Tests.SigPerm
import Verif.Tests.Walsh
