import Verif.Props.C01_C04_Pad
import Verif.Props.C05_C06_SliceMaker
import Verif.Props.C07_C09_EasyFft
import Verif.Props.C100_C101_Version
import Verif.Props.C102_C103_PadBinLaws
import Verif.Props.C104_C105_DataLaws
import Verif.Props.C106_RadialLaws
import Verif.Props.C107_FftLaws
import Verif.Props.C108_C110_ZernikeSpace
import Verif.Props.C10_C13_Basics
import Verif.Props.C111_Converges
import Verif.Props.C112_PrSymmetry
import Verif.Props.C113_C114_SimOtf
import Verif.Props.C115_C116_ConfocalOtf
import Verif.Props.C117_C118_Mtf
import Verif.Props.C119_ZernikeGrid
import Verif.Props.C120_MicroSymmetry
import Verif.Props.C121_MicroUnits
import Verif.Props.C122_Maxwell
import Verif.Props.C123_Refine
import Verif.Props.C124_Oversample
import Verif.Props.C125_SimPlanes
import Verif.Props.C126_Rounding
import Verif.Props.C127_Continuum
import Verif.Props.C128_Perfect
import Verif.Props.C128_Strehl
import Verif.Props.C129_Sampling
import Verif.Props.C130_Aliasing
import Verif.Props.C131_Double
import Verif.Props.C131_Floating
import Verif.Props.C131_Profile
import Verif.Props.C131_Std
import Verif.Props.C132_ResultHistory
import Verif.Props.C133_Races
import Verif.Props.C133_Threads
import Verif.Props.C134_Demo
import Verif.Props.C134_SheppardLimit
import Verif.Props.C135_Interrupt
import Verif.Props.C135_Retry
import Verif.Props.C136_Dictionary
import Verif.Props.C136_Mismatch
import Verif.Props.C136_Planes
import Verif.Props.C137_Clients
import Verif.Props.C137_Race
import Verif.Props.C137_Saved
import Verif.Props.C137_Threads
import Verif.Props.C138_Amplitude
import Verif.Props.C138_Aperture
import Verif.Props.C138_Vectorial
import Verif.Props.C138_Weights
import Verif.Props.C139_MicroAliasing
import Verif.Props.C140_PrAliasing
import Verif.Props.C141_ZernikeFloat
import Verif.Props.C142_Locks
import Verif.Props.C142_Race
import Verif.Props.C142_Reads
import Verif.Props.C142_Threads
import Verif.Props.C143_Interrupt
import Verif.Props.C144_Private
import Verif.Props.C14_C15_Prep
import Verif.Props.C16_C18_Bin
import Verif.Props.C19_C20_Radial
import Verif.Props.C21_NumericProperty
import Verif.Props.C22_C24_Noll
import Verif.Props.C25_C27_Zernike
import Verif.Props.C28_C30_Names
import Verif.Props.C31_C64_Demo
import Verif.Props.C31_Hanser
import Verif.Props.C32_C33_Sheppard
import Verif.Props.C34_C37_Params
import Verif.Props.C34_Special
import Verif.Props.C38_Aberration
import Verif.Props.C39_C43_Hanser
import Verif.Props.C44_C45_Otfi
import Verif.Props.C46_C48_Symmetry
import Verif.Props.C49_Aberration
import Verif.Props.C50_C52_Sheppard
import Verif.Props.C53_C55_Micro
import Verif.Props.C54_C56_Demo
import Verif.Props.C56_Micro
import Verif.Props.C57_Pinhole
import Verif.Props.C58_Confocal
import Verif.Props.C59_Sim
import Verif.Props.C60_C61_Sim
import Verif.Props.C62_C63_Phase
import Verif.Props.C64_C67_Phase
import Verif.Props.C68_C69_Phase
import Verif.Props.C70_C71_Zernike
import Verif.Props.C72_C74_Display
import Verif.Props.C75_Labview
import Verif.Props.C78_Overlay
import Verif.Props.C79_C81_Physics
import Verif.Props.C82_MicroOtf
import Verif.Props.C83_Wiener
import Verif.Props.C84_Pair
import Verif.Props.C85_C86_Sheppard
import Verif.Props.C87_C88_Repr
import Verif.Props.C89_C90_Plot
import Verif.Props.C91_Exposure
import Verif.Props.C92_C93_PrPlot
import Verif.Props.C94_Attributes
import Verif.Props.C95_Apotome
import Verif.Props.C96_Twin
import Verif.Props.C97_C99_Version
